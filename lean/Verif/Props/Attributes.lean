import Verif.Proofs.Attributes
import Verif.Props.MacroParse

/-!
# C99: attributes of match arms

In Rust, an attribute before an arm of a `match` is an attribute of that arm. In
`$(match e { … })` it is not: `parse_match` looks for attributes behind the braces
(genco-macros/src/quote.rs 199). An attribute before an arm is refused, and attributes
behind the braces are attributes of the first arm.
-/

set_option autoImplicit false

namespace Genco.Props

open Spec Spec.MacroFile Macro ParseSample

/-- C99. An attribute before an arm is refused, with whatever is behind the braces. The full claim,
that it is an attribute of the arm, is false of the code. As in `syn`, no pattern begins with `#`. -/
theorem C99_before_partial (S : Syn) (isMeta : List TT → Bool) (hS : ∀ t r, isHash t = true → S.patMulti (t :: r) = none)
    (ts e : List TT) (c : Cur) (t : TT) (body rest : List TT) (ht : isHash t = true)
    (he : S.expr ts = some (e, .group c .brace (t :: body) :: rest)) (n : Nat) : parseMatch S isMeta n ts = none := by
  rw [parseMatch, he]
  have : parseArms S n (t :: body) = none := by
    cases n with
    | zero => rw [parseArms]
    | succ n => rw [parseArms.eq_3 _ _ _ (by simp), hS t body ht]; rfl
  simp [armsWith_eq, this]

/-- C99. The same before a later arm: what begins with `#` is never read as arms. What is behind an
arm is arms again (`Means.armBlock` and the like), so this holds before every arm. -/
theorem C99_between_partial (S : Syn) (hS : ∀ t r, isHash t = true → S.patMulti (t :: r) = none)
    (t : TT) (body : List TT) (as) (ht : isHash t = true) : ¬ Means S (.arms (t :: body) as) := by
  intro h
  obtain ⟨n, h⟩ := (arms_iff ..).2 h
  cases n with
  | zero => rw [parseArms] at h; cases h
  | succ n => rw [parseArms.eq_3 _ _ _ (by simp), hS t body ht] at h; cases h

/-- C99. What is accepted, exactly: between the braces are arms without attributes; behind the
braces are attributes, all of them for the first arm, so none if there is no arm. -/
theorem C99_behind_partial (S : Syn) (isMeta : List TT → Bool) (ts e : List TT) (as : List MatchArm) :
    (∃ n, parseMatch S isMeta n ts = some (e, as)) ↔
      ∃ c body rest attr bs, S.expr ts = some (e, .group c .brace body :: rest) ∧ Means S (.arms body bs) ∧
        Attributes isMeta rest attr ∧
        ((bs = [] ∧ attr = [] ∧ as = []) ∨
          ∃ a r, bs = a :: r ∧ as = (attr, a) :: r.map (fun b => ([], b))) := by
  rw [match_iff]
  constructor
  · rintro ⟨c, body, rest, attr, bs, he, hm, ha, hn, rfl⟩
    refine ⟨c, body, rest, attr, bs, he, hm, ha, ?_⟩
    cases bs with
    | nil => exact .inl ⟨rfl, hn rfl, rfl⟩
    | cons b bs => exact .inr ⟨b, bs, rfl, rfl⟩
  · rintro ⟨c, body, rest, attr, bs, he, hm, ha, h⟩
    rcases h with ⟨rfl, rfl, rfl⟩ | ⟨a, r, rfl, rfl⟩
    · exact ⟨c, body, rest, [], [], he, hm, ha, fun _ => rfl, rfl⟩
    · exact ⟨c, body, rest, attr, a :: r, he, hm, ha, nofun, rfl⟩

/-- C99. With nothing behind the braces the node is the one of C67, whichever attributes are active. -/
theorem C99_without (S : Syn) (isMeta active : List TT → Bool) (ts e : List TT) (c cur : Cur) (body : List TT)
    (node : Node (List TT)) (he : S.expr ts = some (e, [.group c .brace body])) :
    (∃ n as, parseMatch S isMeta n ts = some (e, as) ∧ encodeMatch active cur e as = node) ↔
      ∃ bs, Means S (.arms body bs) ∧ node = .select cur e bs := by
  have key : ∀ bs : List (Arm (List TT)), encodeMatch active cur e (bs.map (fun b => (([], b) : MatchArm))) = .select cur e bs := by
    intro bs
    simp [encodeMatch, List.filter_map, Function.comp_def]
  constructor
  · rintro ⟨n, as, h, rfl⟩
    obtain ⟨c', body', rest, attr, bs, he', hm, ha, hn, rfl⟩ := (match_iff ..).1 ⟨n, h⟩
    cases he.symm.trans he'
    cases ha
    exact ⟨bs, hm, by rw [onFirst_nil, key]⟩
  · rintro ⟨bs, hm, rfl⟩
    obtain ⟨n, h⟩ := (match_iff S isMeta ts e (attrFirst [] bs)).2 ⟨c, body, [], [], bs, he, hm, .nil, fun _ => rfl, rfl⟩
    exact ⟨n, _, h, by rw [onFirst_nil, key]⟩

/-- C99. With attributes behind the braces, of which one is not active, the first arm is gone; all
other arms stay. If all are active, all arms stay. -/
theorem C99_dropped (S : Syn) (isMeta active : List TT → Bool) (ts e : List TT) (c cur : Cur) (body rest : List TT)
    (attr : List (List TT)) (b : Arm (List TT)) (bs : List (Arm (List TT)))
    (he : S.expr ts = some (e, .group c .brace body :: rest)) (hm : Means S (.arms body (b :: bs)))
    (ha : Attributes isMeta rest attr) :
    ∃ n as, parseMatch S isMeta n ts = some (e, as) ∧
      ((∃ a ∈ attr, active a = false) → encodeMatch active cur e as = .select cur e bs) ∧
      ((∀ a ∈ attr, active a = true) → encodeMatch active cur e as = .select cur e (b :: bs)) := by
  obtain ⟨n, h⟩ := (match_iff S isMeta ts e (attrFirst attr (b :: bs))).2
    ⟨c, body, rest, attr, b :: bs, he, hm, ha, nofun, rfl⟩
  refine ⟨n, _, h, ?_, ?_⟩
  · rintro ⟨a, h1, h2⟩
    have : attr.all active = false := by
      rw [List.all_eq_false]; exact ⟨a, h1, by rw [h2]; exact Bool.false_ne_true⟩
    simp [encodeMatch, attrFirst, this, List.filter_map, Function.comp_def]
  · intro h1
    have : attr.all active = true := List.all_eq_true.2 h1
    simp [encodeMatch, attrFirst, this, List.filter_map, Function.comp_def]

/-- C99. Attributes of two arms are the attributes of one: with more than one arm, every arm but
the first is always there. -/
theorem C99_others (S : Syn) (isMeta active : List TT → Bool) (ts e : List TT) (n : Nat) (a : MatchArm) (as : List MatchArm)
    (h : parseMatch S isMeta n ts = some (e, a :: as)) (cur : Cur) :
    encodeMatch active cur e (a :: as) = .select cur e ((if a.1.all active then [a.2] else []) ++ as.map Prod.snd) := by
  obtain ⟨c, body, rest, attr, bs, he, hm, ha, hn, h⟩ := (match_iff ..).1 ⟨n, h⟩
  cases bs with
  | nil => cases h
  | cons b bs =>
    cases h
    cases hx : attr.all active <;> simp [encodeMatch, hx, List.filter_map, Function.comp_def]

namespace AttributeSample

/-- `a => {}` at a column. -/
def arm (column : Nat) (s : String) : List TT :=
  [id' 1 column s, pu 1 (column + 2) '=' true, pu 1 (column + 3) '>', .group (at' 1 (column + 5) (column + 7)) .brace []]

/-- `#[off]` at a column. -/
def off (column : Nat) : List TT :=
  [pu 1 column '#', .group (at' 1 (column + 1) (column + 6)) .bracket [id' 1 (column + 2) "off"]]

def braces (ts : List TT) : TT := .group (at' 1 10 50) .brace ts

/-- An attribute is a word. -/
def anyWord : List TT → Bool
  | [.ident _ _] => true
  | _ => false

/-- Only `off` is not active. -/
def active : List TT → Bool
  | [.ident _ w] => w != "off".toList
  | _ => true

def mk (column : Nat) (s : String) : Arm (List TT) := .mk [id' 1 column s] none none []

/-- `x { a => {} b => {} } #[off]`. -/
def trailing : List TT := id' 1 8 "x" :: braces (arm 12 "a" ++ arm 20 "b") :: off 51

/-- `x { a => {} #[off] b => {} }`. -/
def between : List TT := [id' 1 8 "x", braces (arm 12 "a" ++ off 20 ++ arm 27 "b")]

/-- `x { #[off] b => {} }`. -/
def before : List TT := [id' 1 8 "x", braces (off 12 ++ arm 20 "b")]

end AttributeSample

open AttributeSample

/-- The patterns of the examples do not begin with `#`. -/
theorem AttributeSample.noHash (t : TT) (r : List TT) (h : isHash t = true) : syn.patMulti (t :: r) = none := by
  cases t <;> first | rfl | cases h

/-- The attribute behind the braces is the one of the first arm … -/
example : (parseMatch syn anyWord 5 trailing).map Prod.snd = some [([[id' 1 53 "off"]], mk 12 "a"), ([], mk 20 "b")] := rfl

/-- … which is gone then. -/
example : encodeMatch active (at' 1 0 60) [] [([[id' 1 53 "off"]], mk 12 "a"), ([], mk 20 "b")] =
    .select (at' 1 0 60) [] [mk 20 "b"] := rfl

example (n : Nat) : parseMatch syn anyWord n before = none :=
  C99_before_partial syn anyWord noHash before [id' 1 8 "x"] (at' 1 10 50) (pu 1 12 '#') _ [] rfl rfl n

example : parseMatch syn anyWord 9 between = none := rfl

example : Means syn (.arms (arm 12 "a" ++ arm 20 "b") [mk 12 "a", mk 20 "b"]) := (arms_iff ..).1 ⟨5, rfl⟩

example : Attributes anyWord (off 51) [[id' 1 53 "off"]] := .cons rfl .nil

/-- Two attributes behind the braces are both of the first arm, and a single `#` is refused. -/
example : (parseMatch syn anyWord 5 (trailing ++ off 60)).map (fun p => p.2.map (fun a => a.1.length)) = some [2, 0] ∧
    parseMatch syn anyWord 5 (trailing ++ [pu 1 60 '#']) = none := ⟨rfl, rfl⟩

/-- Without arms there can be no attributes. -/
example : parseMatch syn anyWord 5 [id' 1 8 "x", braces []] = some ([id' 1 8 "x"], []) ∧
    parseMatch syn anyWord 5 (id' 1 8 "x" :: braces [] :: off 51) = none := ⟨rfl, rfl⟩

/-- C99. The claim as in Rust, for any reading of attributes before arms: what is read gives each arm
the attributes before it. It is false: there is a `match` with an attribute before an arm that is
refused, and one where an arm has an attribute that is not before it. -/
theorem C99_negative : (∀ n, parseMatch syn anyWord n before = none) ∧
    ∃ as, parseMatch syn anyWord 5 trailing = some ([id' 1 8 "x"], as) ∧
      encodeMatch active (at' 1 0 60) [id' 1 8 "x"] as ≠
        .select (at' 1 0 60) [id' 1 8 "x"] [mk 12 "a", mk 20 "b"] := by
  refine ⟨fun n => C99_before_partial syn anyWord noHash before [id' 1 8 "x"] (at' 1 10 50) (pu 1 12 '#') _ [] rfl rfl n,
    [([[id' 1 53 "off"]], mk 12 "a"), ([], mk 20 "b")], rfl, ?_⟩
  intro h
  have h' : Node.select (at' 1 0 60) [id' 1 8 "x"] [mk 20 "b"] =
      .select (at' 1 0 60) [id' 1 8 "x"] [mk 12 "a", mk 20 "b"] := h
  injection h' with _ _ h'
  have := congrArg List.length h'
  simp at this

end Genco.Props
