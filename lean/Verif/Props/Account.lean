import Verif.Props.Once

/-!
# No token of a template is ignored

C109 says that code is not made up. Here is the other direction: every token of the input is
used, for constant text, in Rust code, or it is one of the words and
delimiters of the macro.
-/

set_option autoImplicit false

namespace Genco.Props

open Spec Spec.MacroFile Macro

namespace Account

/-- A token of the input that is no group, or one end of a group. -/
inductive Leaf where
  | tok (t : TT)
  | opening (cur : Cur) (d : Delimiter)
  | closing (cur : Cur) (d : Delimiter)

mutual

/-- All tokens, from the first to the last. -/
def leaves : List TT → List Leaf
  | [] => []
  | t :: ts => leavesOne t ++ leaves ts

def leavesOne : TT → List Leaf
  | .group cur d content => .opening cur d :: leaves content ++ [.closing cur d]
  | .ident cur name => [.tok (.ident cur name)]
  | .punct cur c j => [.tok (.punct cur c j)]
  | .str cur v text => [.tok (.str cur v text)]
  | .char cur v text => [.tok (.char cur v text)]
  | .lit cur text => [.tok (.lit cur text)]

end

/-- How a token is written. -/
def Leaf.text : Leaf → Str
  | .tok (.ident _ name) => name
  | .tok (.punct _ c _) => [c]
  | .tok (.str _ _ text) => text
  | .tok (.char _ _ text) => text
  | .tok (.lit _ text) => text
  | .tok (.group ..) => []
  | .opening _ .parenthesis => ['(']
  | .opening _ .brace => ['{']
  | .opening _ .bracket => ['[']
  | .closing _ .parenthesis => [')']
  | .closing _ .brace => ['}']
  | .closing _ .bracket => [']']

/-- What a token can be used for. -/
inductive Use where
  /-- A character of constant text. -/
  | char (c : Char)
  /-- A token of Rust code. -/
  | code (l : Leaf)
  /-- The name a scope has for the stream, or that it has none. -/
  | binder (bound : Bool)

/-- The characters of a text that are no whitespace. -/
def chars (s : Str) : List Use := (s.filter fun c => !c.isWhitespace).map .char

def coded (e : List TT) : List Use := (leaves e).map .code

/-! ## Templates -/

mutual

/-- What is in a template, in the order of the source; if `k` is not set, without the scopes that
cannot name the stream. -/
def uses (k : Bool) : List (Node (List TT)) → List Use
  | [] => []
  | n :: ns => usesOne k n ++ uses k ns

def usesOne (k : Bool) : Node (List TT) → List Use
  | .tree _ text => chars text
  | .escape _ => [.char '$']
  | .control _ _ => []
  | .quoted _ s => chars s
  | .literal _ s => chars s
  | .eval _ e => coded e
  | .scope _ bound e => if bound || k then .binder bound :: coded e else []
  | .bind _ pat e => coded pat ++ coded e
  | .loop _ pat iter body => coded pat ++ (coded iter ++ uses k body)
  | .joined _ pat iter _ sep body => coded pat ++ (coded iter ++ (uses k sep ++ uses k body))
  | .ifThen _ c t => coded c ++ uses k t
  | .ifElse _ c t f => coded c ++ (uses k t ++ uses k f)
  | .select _ e as => coded e ++ usesArms k as
  | .group _ d content => chars (Leaf.opening ⟨⟨0, 0⟩, ⟨0, 0⟩⟩ d).text ++ (uses k content ++
      chars (Leaf.closing ⟨⟨0, 0⟩, ⟨0, 0⟩⟩ d).text)
  | .str _ _ ps => usesParts k ps

def usesArms (k : Bool) : List (Arm (List TT)) → List Use
  | [] => []
  | .mk pat none _ block :: as => coded pat ++ (uses k block ++ usesArms k as)
  | .mk pat (some g) _ block :: as => coded pat ++ (coded g ++ (uses k block ++ usesArms k as))

def usesParts (k : Bool) : List (Part (List TT)) → List Use
  | [] => []
  | .dollar _ :: ps => .char '$' :: usesParts k ps
  | .constant _ s :: ps => chars s ++ usesParts k ps
  | .raw _ e :: ps => coded e ++ usesParts k ps
  | .ident _ name :: ps => chars name ++ usesParts k ps
  | .stream _ _ content :: ps => uses k content ++ usesParts k ps
  | .tt _ text :: ps => chars text ++ usesParts k ps

end

/-! ## Accounts -/

/-- The words, signs and delimiters of the macro itself. -/
def Own : Leaf → Prop
  | .tok (.punct _ c _) => c ∈ ['$', '=', '>', ',']
  | .tok (.ident _ w) => w ∈ ["if".toList, "else".toList, "for".toList, "in".toList, "join".toList, "match".toList,
      "let".toList, "ref".toList, "str".toList, "const".toList]
  | .tok (.char _ c _) => c ∈ [' ', '\r', '\n']
  | .tok _ => False
  | _ => True

/-- Every one of the tokens has its use, in this order, or is one of the macro. -/
inductive Used : List Leaf → List Use → Prop where
  | nil : Used [] []
  | own {l : Leaf} {ls : List Leaf} {us : List Use} : Own l → Used ls us → Used (l :: ls) us
  | text {l : Leaf} {ls : List Leaf} {us : List Use} : Used ls us → Used (l :: ls) (chars l.text ++ us)
  | string {cur : Cur} {v text : Str} {ls : List Leaf} {us : List Use} : Used ls us →
    Used (.tok (.str cur v text) :: ls) (chars v ++ us)
  | code {l : Leaf} {ls : List Leaf} {us : List Use} : Used ls us → Used (l :: ls) (.code l :: us)
  | binder {cur : Cur} {name : Str} {ls : List Leaf} {us : List Use} : Used ls us →
    Used (.tok (.ident cur name) :: ls) (.binder (name != ['_']) :: us)

/-- A token tree is shown as its tokens, with whitespace between them or without. -/
def Shows (S : Syn) : Prop :=
  ∀ t, chars (S.display t) = (leavesOne t).flatMap (fun l => chars l.text)

theorem Used.append {a b : List Leaf} {x y : List Use} (h : Used a x) (k : Used b y) : Used (a ++ b) (x ++ y) := by
  induction h with
  | nil => exact k
  | own o _ ih => exact .own o ih
  | text _ ih => rw [List.append_assoc]; exact .text ih
  | string _ ih => rw [List.append_assoc]; exact .string ih
  | code _ ih => exact .code ih
  | binder _ ih => exact .binder ih

theorem leaves_append (a b : List TT) : leaves (a ++ b) = leaves a ++ leaves b := by
  induction a with
  | nil => rfl
  | cons t a ih => rw [List.cons_append, leaves, leaves, ih, List.append_assoc]

theorem used_coded (e : List TT) : Used (leaves e) (coded e) := by
  unfold coded
  induction leaves e with
  | nil => exact .nil
  | cons l ls ih => exact .code ih

theorem used_shown (ls : List Leaf) : Used ls (ls.flatMap (fun l => chars l.text)) := by
  induction ls with
  | nil => exact .nil
  | cons l ls ih => exact .text ih

/-- A group whose delimiters are of the macro. -/
theorem used_inside {cur : Cur} {d : Delimiter} {ts : List TT} {us : List Use} (h : Used (leaves ts) us) :
    Used (leavesOne (.group cur d ts)) us := by
  have : Used (.opening cur d :: leaves ts ++ [.closing cur d]) (us ++ []) :=
    .own (l := .opening cur d) trivial (h.append (.own (l := .closing cur d) trivial .nil))
  rw [List.append_nil] at this
  exact this

theorem used_then {t : TT} {ts : List TT} {x y : List Use} (h : Used (leavesOne t) x) (k : Used (leaves ts) y) :
    Used (leaves (t :: ts)) (x ++ y) := h.append k

theorem used_code {e ts : List TT} {us : List Use} (h : Used (leaves ts) us) :
    Used (leaves (e ++ ts)) (coded e ++ us) := by
  rw [leaves_append]
  exact (used_coded e).append h

theorem used_arrow {a b : Cur} {j : Bool} {ts : List TT} {us : List Use} (h : Used (leaves ts) us) :
    Used (leaves (arrow a b j ++ ts)) us :=
  .own (l := .tok (.punct a '=' true)) (by simp [Own]) (.own (l := .tok (.punct b '>' j)) (by simp [Own]) h)

theorem used_dollar {a : Cur} {j : Bool} {ts : List TT} {us : List Use} (h : Used (leaves ts) us) :
    Used (leaves (.punct a '$' j :: ts)) us :=
  .own (l := .tok (.punct a '$' j)) (by simp [Own]) h

theorem used_word {c : Cur} {w : Str} {ts : List TT} {us : List Use} (hw : Own (.tok (.ident c w)))
    (h : Used (leaves ts) us) : Used (leaves (.ident c w :: ts)) us :=
  .own (l := .tok (.ident c w)) hw h

theorem used_comma {ts : List TT} {us : List Use} (h : Used (leaves (sansComma ts)) us) : Used (leaves ts) us := by
  unfold sansComma at h
  split at h
  · rename_i hb
    rcases ts with _ | ⟨t, ts⟩
    · cases hb
    · cases t with
      | punct cur c j =>
        have hc : c = ',' := by simpa [begins, isComma] using hb
        exact .own (l := .tok (.punct cur c j)) (by simp [Own, hc]) h
      | _ => simp [begins, isComma] at hb
  · exact h

theorem sansComma_dropWhile (r : List TT) :
    sansComma (r.dropWhile (fun t => !isComma t)) = (r.dropWhile (fun t => !isComma t)).tail := by
  induction r with
  | nil => rfl
  | cons t r ih =>
    rw [List.dropWhile_cons]
    split
    · exact ih
    · rename_i hb
      have : isComma t = true := by simpa using hb
      simp [sansComma, begins, this]

theorem used_arm {S : Syn} (hS : Once.Cuts S) {a b : Cur} {j : Bool} {ts pat us r : List TT}
    {guard : Option (List TT)} {paren : Option Cur} {ns} {as} (hp : S.patMulti ts = some (pat, us))
    (hg : Guarded S us guard (arrow a b j ++ r)) (h : Used (leaves r) (uses true ns ++ usesArms true as)) :
    Used (leaves ts) (usesArms true (.mk pat guard paren ns :: as)) := by
  have := hS.patMulti _ _ _ hp
  subst this
  rcases hg with ⟨-, rfl, rfl⟩ | ⟨c, vs, e, rfl, hv, rfl⟩
  · exact used_code (used_arrow h)
  · have := hS.fullExpr _ _ _ hv
    subst this
    exact used_code (used_word (by simp [Own]) (used_code (used_arrow h)))

/-- The tokens of a form have their use in what it means. -/
def Accounted : MacroFile.Form → Prop
  | .nodes ts ns => Used (leaves ts) (uses true ns)
  | .inside _ ts n => Used (leaves ts) (usesOne true n)
  | .body ts ns => Used (leaves ts) (uses true ns)
  | .arms ts as => Used (leaves ts) (usesArms true as)
  | .parts ts ps => Used (leaves ts) (usesParts true ps)

theorem opening_text (cur cur' : Cur) (d : Delimiter) : (Leaf.opening cur d).text = (Leaf.opening cur' d).text := by
  cases d <;> rfl

theorem closing_text (cur cur' : Cur) (d : Delimiter) : (Leaf.closing cur d).text = (Leaf.closing cur' d).text := by
  cases d <;> rfl

theorem chars_dollar : chars ['$'] = [.char '$'] := by simp [chars]

theorem accounted {S : Syn} (hS : Once.Cuts S) (hd : Shows S) {f : MacroFile.Form} (h : Means S f) : Accounted f := by
  induction h with
  | nil => exact .nil
  | @word t w ts ns hw _ ih =>
    cases t with
    | ident c name => cases hw; exact .text (l := .tok (.ident c _)) ih
    | punct c ch j =>
      rw [wordOf] at hw
      split at hw <;> cases hw
      exact .text (l := .tok (.punct c ch j)) ih
    | char c v text => cases hw; exact .text (l := .tok (.char c v _)) ih
    | lit c text => cases hw; exact .text (l := .tok (.lit c _)) ih
    | str => cases hw
    | group => cases hw
  | quoted _ ih => exact .string ih
  | @group cur d content ts ms ns _ _ ih1 ih2 =>
    refine used_then (t := .group cur d content) ?_ ih2
    rw [usesOne, opening_text _ cur, closing_text _ cur]
    refine .text (l := .opening cur d) (ih1.append ?_)
    have := Used.text (l := .closing cur d) .nil
    rwa [List.append_nil] at this
  | @alone cur j ts ns _ _ ih => exact .text (l := .tok (.punct cur '$' j)) ih
  | @escape a b j k ts ns _ ih =>
    have := used_dollar (a := a) (j := j) (ts := .punct b '$' k :: ts) (.text (l := .tok (.punct b '$' k)) ih)
    rw [Leaf.text, chars_dollar] at this
    exact this
  | @control a b c j ch k text ts ns hm _ _ ih =>
    refine used_dollar (used_then (x := []) (used_inside ?_) ih)
    refine .own (l := .tok (.char c ch text)) ?_ .nil
    simp only [List.mem_cons, Prod.mk.injEq, List.not_mem_nil, or_false] at hm
    simp only [Own, List.mem_cons, List.not_mem_nil, or_false]
    exact hm.imp And.left (Or.imp And.left And.left)
  | str _ _ ih1 ih2 =>
    exact used_dollar (used_then (x := []) (used_inside (used_word (by simp [Own]) .nil)) (used_then (used_inside ih1) ih2))
  | @name a b j name ts ns _ _ ih => exact used_dollar (used_code (e := [.ident b name]) ih)
  | paren _ _ ih1 ih2 => exact used_dollar (used_then (used_inside ih1) ih2)
  | @literal cur c s text =>
    have := Used.string (cur := c) (v := s) (text := text) .nil
    rwa [List.append_nil] at this
  | @eval cur ts e _ _ h =>
    have := hS.fullExpr _ _ _ h
    rw [List.append_nil] at this
    subst this
    exact used_coded _
  | ifThen h _ ih =>
    have := hS.expr _ _ _ h
    subst this
    exact used_word (by simp [Own]) (used_code ih)
  | ifElse h _ _ ih1 ih2 =>
    have := hS.expr _ _ _ h
    subst this
    refine used_word (by simp [Own]) (used_code (used_then (used_inside ih1) (used_word (by simp [Own]) ?_)))
    have := fun c3 => used_then (used_inside (cur := c3) (d := .brace) ih2) (ts := []) .nil
    simp only [List.append_nil] at this
    exact this _
  | loop h1 h2 _ _ ih =>
    have e1 := hS.pat _ _ _ h1
    have e2 := hS.expr _ _ _ h2
    subst e1 e2
    exact used_word (by simp [Own]) (used_code (used_word (by simp [Own]) (used_code ih)))
  | joined h1 h2 _ _ ih1 ih2 =>
    have e1 := hS.pat _ _ _ h1
    have e2 := hS.expr _ _ _ h2
    subst e1 e2
    exact used_word (by simp [Own]) (used_code (used_word (by simp [Own]) (used_code (used_word (by simp [Own])
      (used_then (used_inside ih1) ih2)))))
  | select h _ ih =>
    have := hS.expr _ _ _ h
    subst this
    refine used_word (by simp [Own]) (used_code ?_)
    have := fun c1 => used_then (used_inside (cur := c1) (d := .brace) ih) (ts := []) .nil
    simp only [List.append_nil] at this
    exact this _
  | @bind cur c c1 j ts pat us e h1 h2 =>
    have e1 := hS.pat _ _ _ h1
    have e2 := hS.expr _ _ _ h2
    rw [List.append_nil] at e2
    subst e1 e2
    exact used_word (by simp [Own]) (used_code (.own (l := .tok (.punct c1 '=' j)) (by simp [Own]) (used_coded _)))
  | @scope cur c c1 b ts code _ h =>
    have hb : decide (b ≠ ['_']) = (b != ['_']) := by
      by_cases h : b = ['_'] <;> simp [h]
    rw [Accounted, usesOne, Bool.or_true, if_pos rfl]
    rw [hb]
    refine used_word (by simp [Own]) (.binder ?_)
    rcases h with ⟨a1, a2, j, rfl⟩ | ⟨a1, rfl⟩
    · exact used_arrow (used_coded _)
    · have := used_then (used_inside (cur := a1) (d := .brace) (used_coded code)) (ts := []) .nil
      rwa [List.append_nil] at this
  | behind _ ih => exact used_arrow ih
  | @braces a ts ns _ ih =>
    have := used_then (used_inside (cur := a) (d := .brace) ih) (ts := []) .nil
    rwa [List.append_nil] at this
  | noArms => exact .nil
  | armBlock _ hp hg hr _ _ ih1 ih2 =>
    subst hr
    exact used_arm hS hp hg (used_then (used_inside ih1) (used_comma ih2))
  | armParen _ hp hg hr _ _ ih1 ih2 =>
    subst hr
    exact used_arm hS hp hg (used_then (used_inside ih1) (used_comma ih2))
  | @armLine a b j ts pat us r guard ns as _ hp hg _ _ _ _ ih1 ih2 =>
    refine used_arm hS hp hg ?_
    rw [← List.takeWhile_append_dropWhile (p := fun t => !isComma t) (l := r), leaves_append]
    refine ih1.append (used_comma ?_)
    rw [sansComma_dropWhile]
    exact ih2
  | noParts => exact .nil
  | @plain t ts ps _ _ ih =>
    refine used_then (t := t) ?_ ih
    rw [hd t]
    exact used_shown _
  | @dollar a b j k ts ps _ ih =>
    have := used_dollar (a := a) (j := j) (ts := .punct b '$' k :: ts) (.text (l := .tok (.punct b '$' k)) ih)
    rw [Leaf.text, chars_dollar] at this
    exact this
  | @constant a b c p q j s text ts ps _ ih =>
    have := Used.string (cur := q) (v := s) (text := text) .nil
    rw [List.append_nil] at this
    exact used_dollar (used_then (x := []) (used_inside (used_word (by simp [Own]) .nil))
      (used_then (ts := ts) (used_inside (ts := [.str q s text]) this) ih))
  | raw _ h _ ih =>
    have := hS.fullExpr _ _ _ h
    rw [List.append_nil] at this
    subst this
    exact used_dollar (used_then (x := []) (used_inside (used_word (by simp [Own]) .nil))
      (used_then (used_inside (used_coded _)) ih))
  | @value a b j name ts ps _ _ ih => exact used_dollar (.text (l := .tok (.ident b name)) ih)
  | stream _ _ ih1 ih2 => exact used_dollar (used_then (used_inside ih1) ih2)

/-! ## Generated code -/

section

variable {ι : Type}

mutual

/-- What is in generated statements: the characters of constant text, and Rust code. -/
def said (k : Bool) : List (Stmt ι (List TT)) → List Use
  | [] => []
  | s :: ss => saidOne k s ++ said k ss

def saidOne (k : Bool) : Stmt ι (List TT) → List Use
  | .call (.append (.literal s)) => chars s.text
  | .call _ => []
  | .value e => coded e
  | .scope bound e => if bound || k then .binder bound :: coded e else []
  | .bind pat e => coded pat ++ coded e
  | .forIn pat iter body => coded pat ++ (coded iter ++ said k body)
  | .joinIn pat iter sep body => coded pat ++ (coded iter ++ (said k sep ++ said k body))
  | .ifThen c t => coded c ++ said k t
  | .ifElse c t f => coded c ++ (said k t ++ said k f)
  | .select e as => coded e ++ saidArms k as

def saidArms (k : Bool) : List (List TT × Option (List TT) × List (Stmt ι (List TT))) → List Use
  | [] => []
  | (pat, none, block) :: as => coded pat ++ (said k block ++ saidArms k as)
  | (pat, some g, block) :: as => coded pat ++ (coded g ++ (said k block ++ saidArms k as))

end

theorem chars_append (s t : Str) : chars (s ++ t) = chars s ++ chars t := by simp [chars]

theorem said_append (k : Bool) (a b : List (Stmt ι (List TT))) : said k (a ++ b) = said k a ++ said k b := by
  induction a with
  | nil => rfl
  | cons s a ih => rw [List.cons_append, said, said, ih, List.append_assoc]

/-- A call that is no literal. -/
def Mute (s : Stmt ι (List TT)) : Prop := ∃ c, s = .call c ∧ ∀ l, c ≠ .append (.literal l)

theorem said_mute (k : Bool) (ss : List (Stmt ι (List TT))) (h : ∀ s ∈ ss, Mute s) : said k ss = [] := by
  induction ss with
  | nil => rfl
  | cons s ss ih =>
    obtain ⟨c, rfl, hc⟩ := h s (List.mem_cons_self ..)
    rw [said, ih (fun t ht => h t (List.mem_cons_of_mem _ ht)), List.append_nil]
    unfold saidOne
    split <;> first | rfl | skip
    all_goals rename_i h; cases h
    exact absurd rfl (hc _)

/-- What an encoder has been told so far. -/
def total (k : Bool) (e : Enc ι (List TT)) : List Use := said k e.output ++ chars e.itemBuffer

theorem total_flush (k : Bool) (e : Enc ι (List TT)) : said k e.flush.output = total k e ∧ e.flush.itemBuffer = [] := by
  unfold Enc.flush total
  split
  · rename_i h
    refine ⟨?_, h⟩
    rw [h]
    exact (List.append_nil _).symm
  · refine ⟨?_, rfl⟩
    refine (said_append k _ _).trans ?_
    simp [said, saidOne, ItemStr.text]

theorem total_flushed (k : Bool) (e : Enc ι (List TT)) : total k e.flush = total k e := by
  obtain ⟨h1, h2⟩ := total_flush k e
  rw [total, h1, h2]
  exact List.append_nil _

theorem total_extend (k : Bool) (e : Enc ι (List TT)) (ss : List (Stmt ι (List TT))) :
    total k (e.flush.extend ss) = total k e ++ said k ss := by
  obtain ⟨h1, h2⟩ := total_flush k e
  show said k (e.flush.output ++ ss) ++ chars e.flush.itemBuffer = _
  rw [said_append, h1, h2]
  exact List.append_nil _

theorem said_unindents (k : Bool) (c : Nat) (line : Bool) : ∀ (l rest : List Nat) (out : List (Stmt ι (List TT))),
    Enc.unindents c line l = .ok (rest, out) → said k out = [] := by
  intro l
  induction l with
  | nil => intro rest out h; cases h; rfl
  | cons d l ih =>
    intro rest out h
    rw [Enc.unindents] at h
    split at h
    · obtain ⟨⟨r, o⟩, h1, h2⟩ := ok_bind h
      cases h2
      have := ih _ _ h1
      cases line <;> simp [said, saidOne, this]
    · split at h
      · cases h
        cases line <;> rfl
      · cases h

theorem total_tokenize (k : Bool) {e e' : Enc ι (List TT)} {a b : Pos} (h : e.tokenizeWhitespace a b = .ok e') :
    total k e' = total k e := by
  have more : ∀ ss, said k ss = [] → total k (e.flush.extend ss) = total k e := by
    intro ss hs
    rw [total_extend, hs, List.append_nil]
  unfold Enc.tokenizeWhitespace at h
  split at h
  · cases h; rfl
  split at h
  · split at h
    · cases h
      exact more _ rfl
    · cases h; rfl
  · dsimp only at h
    split at h
    · cases h
    · split at h
      · cases h; exact total_flushed k e
      · rename_i c hc
        split at h
        · cases h
          refine more (.call .indent :: _) ?_
          cases decide (b.line - a.line > 1) <;> rfl
        · split at h
          · obtain ⟨⟨r, o⟩, h1, h2⟩ := ok_bind h
            cases h2
            exact more o (said_unindents k _ _ _ _ _ h1)
          · split at h <;>
            · cases h
              exact more _ rfl

theorem total_origin (k : Bool) (e : Enc ι (List TT)) : total k e.origin.1 = total k e := by
  unfold Enc.origin
  split
  · rfl
  · split
    · split <;> rfl
    · rfl

theorem total_step (k : Bool) {e e' : Enc ι (List TT)} {cur : Cur} (h : e.step cur = .ok e') : total k e' = total k e := by
  unfold Enc.step at h
  have ho := total_origin k e
  cases hr : e.origin with
  | mk e1 o =>
    rw [hr] at h ho
    cases o with
    | none => cases h; exact ho
    | some p =>
      obtain ⟨e2, h1, h2⟩ := ok_bind h
      cases h2
      exact (total_tokenize k h1).trans ho

/-- What is in the pieces given to the encoder. -/
def saidAst (k : Bool) : Ast ι (List TT) → List Use
  | .tree s | .quoted s | .literal s => chars s
  | .delimiterOpen d => chars [d.encodeOpen]
  | .delimiterClose d => chars [d.encodeClose]
  | .control _ => []
  | .string _ ss => said k ss
  | .eval x => coded x
  | .scope b x => if b || k then .binder b :: coded x else []
  | .loop p i none ss => coded p ++ (coded i ++ said k ss)
  | .loop p i (some j) ss => coded p ++ (coded i ++ (said k j ++ said k ss))
  | .condition c t none => coded c ++ said k t
  | .condition c t (some f) => coded c ++ (said k t ++ said k f)
  | .bind p x => coded p ++ coded x
  | .select x as => coded x ++ saidArms k as

theorem total_ast (k : Bool) (e : Enc ι (List TT)) (a : Ast ι (List TT)) (hb : k = true → .binder false ∉ saidAst k a) :
    total k (e.encodeAst a) = total k e ++ saidAst k a := by
  have one : ∀ s : Stmt ι (List TT), total k (e.flush.extend [s]) = total k e ++ saidOne k s := by
    intro s
    rw [total_extend, said, said, List.append_nil]
  have push : ∀ s : Str, total k (e.pushStr s) = total k e ++ chars s := by
    intro s
    show said k e.output ++ chars (e.itemBuffer ++ s) = _
    rw [chars_append, ← List.append_assoc]
    rfl
  cases a with
  | tree s => exact push s
  | literal s => exact push s
  | delimiterOpen d => exact push _
  | delimiterClose d => exact push _
  | string b ss =>
    unfold Enc.encodeAst
    rw [total_extend]
    show total k e ++ said k (_ :: (ss ++ [_])) = _
    rw [said, said_append]
    simp [said, saidOne, saidAst]
  | quoted s =>
    unfold Enc.encodeAst
    rw [total_extend]
    simp [said, saidOne, saidAst, ItemStr.text]
  | control k => cases k <;> exact one _
  | eval x => exact one _
  | scope b x =>
    cases b with
    | true => exact one _
    | false =>
      cases k with
      | true => exact absurd (List.mem_cons_self ..) (hb rfl)
      | false =>
        show said false (e.output ++ [_]) ++ chars e.itemBuffer = _
        rw [said_append]
        simp [said, saidOne, saidAst, total]
  | loop p i j s => cases j <;> exact one _
  | condition c t f => cases f <;> exact one _
  | select x as => exact one _
  | bind p x => exact one _

theorem total_encode (k : Bool) {e e' : Enc ι (List TT)} {cur : Cur} {a : Ast ι (List TT)}
    (hb : k = true → .binder false ∉ saidAst k a) (h : e.encode cur a = .ok e') :
    total k e' = total k e ++ saidAst k a := by
  unfold Enc.encode at h
  obtain ⟨e1, h1, h2⟩ := ok_bind (x := e.step cur) (f := fun e => .ok (e.encodeAst a)) h
  cases h2
  rw [total_ast k e1 a hb, total_step k h1]

theorem said_into (k : Bool) {e : Enc ι (List TT)} {r : Bool} {ss : List (Stmt ι (List TT))}
    (h : e.intoOutput = .ok (r, ss)) : said k ss = total k e := by
  have last : ∀ e' : Enc ι (List TT),
      said k (e'.flush.output ++ List.replicate e'.flush.indents.length (.call .unindent)) = total k e' := by
    intro e'
    rw [said_append, (total_flush k e').1, said_mute k _ (fun s hs => ⟨_, List.eq_of_mem_replicate hs, by simp⟩),
      List.append_nil]
  unfold Enc.intoOutput at h
  cases hs : e.spanEnd with
  | none => rw [hs] at h; cases h; exact last e
  | some q =>
    rw [hs] at h
    dsimp only at h
    have ho := total_origin k { e with spanEnd := none }
    cases hr : Enc.origin { e with spanEnd := none } with
    | mk e1 o =>
      rw [hr] at h ho
      dsimp only at ho
      cases o with
      | none => cases h; exact (last e1).trans ho
      | some p =>
        dsimp only at h
        cases ht : Enc.tokenizeWhitespace e1 p q with
        | error x => rw [ht] at h; cases h
        | ok e2 => rw [ht] at h; cases h; exact (last e2).trans ((total_tokenize k ht).trans ho)

/-! ## Strings -/

/-- What the encoder of a string has been told so far. -/
def totalStr (k : Bool) (s : StrEnc ι (List TT)) : List Use := said k s.stream ++ chars s.buf

theorem chars_spaces (n : Nat) : chars (List.replicate n ' ') = [] := by
  unfold chars
  rw [List.filter_eq_nil_iff.2, List.map_nil]
  intro c hc
  rw [List.eq_of_mem_replicate hc]
  decide

theorem str_ws (k : Bool) {s s' : StrEnc ι (List TT)} {a : Pos} {b : Option Pos}
    (h : s.flushWhitespace a b = .ok s') : totalStr k s' = totalStr k s := by
  unfold StrEnc.flushWhitespace at h
  split at h
  · cases h; rfl
  · split at h <;> cases h
    show said k s.stream ++ chars (s.buf ++ _) = _
    rw [chars_append, chars_spaces, List.append_nil]
    rfl

theorem str_flush (k : Bool) {s s' : StrEnc ι (List TT)} {a : Pos} {b : Option Pos} (h : s.flush a b = .ok s') :
    said k s'.stream = totalStr k s ∧ s'.buf = [] := by
  unfold StrEnc.flush at h
  obtain ⟨s1, h1, h2⟩ := ok_bind h
  have := str_ws k h1
  split at h2 <;> cases h2
  · rename_i hb
    refine ⟨?_, hb⟩
    rw [← this, totalStr, hb]
    exact (List.append_nil _).symm
  · refine ⟨?_, rfl⟩
    rw [said_append, ← this]
    simp [said, saidOne, totalStr, ItemStr.text]

theorem str_text (k : Bool) {s s' : StrEnc ι (List TT)} {t : Str} {a b : Pos} (h : s.encodeStr t a b = .ok s') :
    totalStr k s' = totalStr k s ++ chars t := by
  unfold StrEnc.encodeStr at h
  obtain ⟨s1, h1, h2⟩ := ok_bind h
  cases h2
  rw [← str_ws k h1]
  show said k s1.stream ++ chars (s1.buf ++ t) = _
  rw [chars_append, ← List.append_assoc]
  rfl

theorem str_eval (k : Bool) {s s' : StrEnc ι (List TT)} {ss : List (Stmt ι (List TT))} {a b : Pos}
    (h : s.evalStream ss a b = .ok s') : totalStr k s' = totalStr k s ++ said k ss := by
  unfold StrEnc.evalStream at h
  obtain ⟨s1, h1, h2⟩ := ok_bind h
  cases h2
  obtain ⟨h3, h4⟩ := str_flush k h1
  show said k (s1.stream ++ _ :: ss ++ [_]) ++ chars s1.buf = _
  rw [said_append, said_append, h3, h4]
  simp [said, saidOne, chars]

theorem str_raw (k : Bool) {s s' : StrEnc ι (List TT)} {x : List TT} {a b : Pos} (h : s.rawExpr x a b = .ok s') :
    totalStr k s' = totalStr k s ++ coded x := by
  unfold StrEnc.rawExpr at h
  obtain ⟨s1, h1, h2⟩ := ok_bind h
  cases h2
  obtain ⟨h3, h4⟩ := str_flush k h1
  show said k (s1.stream ++ [_]) ++ chars s1.buf = _
  rw [said_append, h3, h4]
  simp [said, saidOne, chars]

theorem total_start (k : Bool) (span : Option Cur) : total k (startEnc (ι := ι) span) = [] := by
  cases span <;> rfl

theorem opens_text (c : Cur) (d : Delimiter) : (Leaf.opening c d).text = [d.encodeOpen] := by cases d <;> rfl

theorem closes_text (c : Cur) (d : Delimiter) : (Leaf.closing c d).text = [d.encodeClose] := by cases d <;> rfl

theorem block_into (k : Bool) {span : Option Cur} {ns : List (Node (List TT))} {e : Enc ι (List TT)} {r : Bool}
    {ss : List (Stmt ι (List TT))} (h : total k e = total k (startEnc (ι := ι) span) ++ uses k ns)
    (h2 : e.intoOutput = .ok (r, ss)) : said k ss = uses k ns := by
  rw [said_into k h2, h, total_start, List.nil_append]

mutual

theorem total_nodes (k : Bool) : (ns : List (Node (List TT))) → (k = true → .binder false ∉ uses k ns) →
    ∀ e e' : Enc ι (List TT), nodes e ns = .ok e' → total k e' = total k e ++ uses k ns
  | [], _, e, e', h => by cases h; exact (List.append_nil _).symm
  | n :: ns, hb, e, e', h => by
    obtain ⟨e1, h1, h2⟩ := ok_bind (x := node e n) (f := fun e => nodes e ns) h
    rw [uses] at hb ⊢
    rw [total_nodes k ns (fun hk hm => hb hk (List.mem_append_right _ hm)) e1 e' h2,
      total_node k n (fun hk hm => hb hk (List.mem_append_left _ hm)) e e1 h1, List.append_assoc]

theorem total_node (k : Bool) : (n : Node (List TT)) → (k = true → .binder false ∉ usesOne k n) →
    ∀ e e' : Enc ι (List TT), node e n = .ok e' → total k e' = total k e ++ usesOne k n
  | .tree cur text, hb, e, e', h => total_encode k (a := .tree text) hb h
  | .escape cur, hb, e, e', h => by
    rw [usesOne, ← chars_dollar]
    exact total_encode k (a := .tree ['$']) (fun _ => by simp [saidAst, chars]) h
  | .str cur paren ps, hb, e, e', h => by
    obtain ⟨⟨s, r⟩, h1, h2⟩ := ok_bind h
    obtain ⟨s', h2, h3⟩ := ok_bind h2
    have hs : said k s'.stream = usesParts k ps := by
      rw [(str_flush k h2).1, total_parts k ps hb _ _ _ _ h1]
      rfl
    refine (total_encode k (a := .string s'.hasEval s'.stream) (by rw [saidAst, hs]; exact hb) h3).trans ?_
    rw [saidAst, hs]
    rfl
  | .control cur c, hb, e, e', h => total_encode k (a := .control c) hb h
  | .quoted cur s, hb, e, e', h => total_encode k (a := .quoted s) hb h
  | .literal cur s, hb, e, e', h => total_encode k (a := .literal s) hb h
  | .eval cur x, hb, e, e', h => total_encode k (a := .eval x) hb h
  | .scope cur bound content, hb, e, e', h => total_encode k (a := .scope bound content) hb h
  | .loop cur pat iter body, hb, e, e', h => by
    obtain ⟨e1, h1, h2⟩ := ok_bind h
    obtain ⟨⟨r, ss⟩, h2, h3⟩ := ok_bind h2
    have hs := block_into k (total_nodes k body (fun hk hm => hb hk (by simp [usesOne, hm])) _ e1 h1) h2
    have ha : saidAst k (.loop pat iter none ss) = usesOne k (.loop cur pat iter body) := by
      rw [saidAst, usesOne, hs]
    refine (total_encode k (a := .loop pat iter none ss) (by rw [ha]; exact hb) h3).trans ?_
    rw [ha]
    rfl
  | .joined cur pat iter paren sep body, hb, e, e', h => by
    obtain ⟨e1, h1, h2⟩ := ok_bind h
    obtain ⟨⟨r, ss⟩, h2, h3⟩ := ok_bind h2
    obtain ⟨e2, h4, h5⟩ := ok_bind h3
    obtain ⟨⟨r', ss'⟩, h5, h6⟩ := ok_bind h5
    have hs := block_into k (total_nodes k sep (fun hk hm => hb hk (by simp [usesOne, hm])) _ e1 h1) h2
    have hs' := block_into k (total_nodes k body (fun hk hm => hb hk (by simp [usesOne, hm])) _ e2 h4) h5
    have ha : saidAst k (.loop pat iter (some ss) ss') = usesOne k (.joined cur pat iter paren sep body) := by
      rw [saidAst, usesOne, hs, hs']
    refine (total_encode k (a := .loop pat iter (some ss) ss') (by rw [ha]; exact hb) h6).trans ?_
    rw [ha]
    rfl
  | .ifThen cur c t, hb, e, e', h => by
    obtain ⟨e1, h1, h2⟩ := ok_bind h
    obtain ⟨⟨r, ss⟩, h2, h3⟩ := ok_bind h2
    have hs := block_into k (total_nodes k t (fun hk hm => hb hk (by simp [usesOne, hm])) _ e1 h1) h2
    have ha : saidAst k (.condition c ss none) = usesOne k (.ifThen cur c t) := by
      rw [saidAst, usesOne, hs]
    refine (total_encode k (a := .condition c ss none) (by rw [ha]; exact hb) h3).trans ?_
    rw [ha]
    rfl
  | .ifElse cur c t f, hb, e, e', h => by
    obtain ⟨e1, h1, h2⟩ := ok_bind h
    obtain ⟨⟨r, ss⟩, h2, h3⟩ := ok_bind h2
    obtain ⟨e2, h4, h5⟩ := ok_bind h3
    obtain ⟨⟨r', ss'⟩, h5, h6⟩ := ok_bind h5
    have hs := block_into k (total_nodes k t (fun hk hm => hb hk (by simp [usesOne, hm])) _ e1 h1) h2
    have hs' := block_into k (total_nodes k f (fun hk hm => hb hk (by simp [usesOne, hm])) _ e2 h4) h5
    have ha : saidAst k (.condition c ss (some ss')) = usesOne k (.ifElse cur c t f) := by
      rw [saidAst, usesOne, hs, hs']
    refine (total_encode k (a := .condition c ss (some ss')) (by rw [ha]; exact hb) h6).trans ?_
    rw [ha]
    rfl
  | .select cur x as, hb, e, e', h => by
    obtain ⟨⟨r, out⟩, h1, h2⟩ := ok_bind h
    have ha : saidAst k (.select x out) = usesOne k (.select cur x as) := by
      rw [saidAst, usesOne, said_arms k as (fun hk hm => hb hk (by simp [usesOne, hm])) _ _ h1]
    refine (total_encode k (a := .select x out) (by rw [ha]; exact hb) h2).trans ?_
    rw [ha]
    rfl
  | .bind cur pat x, hb, e, e', h => total_encode k (a := .bind pat x) hb h
  | .group cur d content, hb, e, e', h => by
    obtain ⟨e1, h1, h2⟩ := ok_bind h
    obtain ⟨e2, h2, h3⟩ := ok_bind h2
    have h3 := total_encode k (a := .delimiterClose d) (fun _ => by simp [saidAst, chars]) h3
    have h1 := total_encode k (a := .delimiterOpen d) (fun _ => by simp [saidAst, chars]) h1
    have h2 := total_nodes k content (fun hk hm => hb hk (by simp [usesOne, hm])) _ e2 h2
    rw [h3, h2, h1, usesOne, opens_text, closes_text, saidAst, saidAst]
    simp only [List.append_assoc]

theorem said_arms (k : Bool) : (as : List (Arm (List TT))) → (k = true → .binder false ∉ usesArms k as) →
    ∀ (r : Bool) (out : List (List TT × Option (List TT) × List (Stmt ι (List TT)))),
    arms as = .ok (r, out) → saidArms k out = usesArms k as
  | [], _, r, out, h => by cases h; rfl
  | .mk pat guard paren block :: as, hb, r, out, h => by
    obtain ⟨e1, h1, h2⟩ := ok_bind h
    obtain ⟨⟨r1, ss⟩, h6, h3⟩ := ok_bind h2
    obtain ⟨⟨r2, out'⟩, h4, h5⟩ := ok_bind h3
    cases h5
    have hm : ∀ u, u ∈ uses k block ∨ u ∈ usesArms k as → u ∈ usesArms k (.mk pat guard paren block :: as) := by
      intro u hu
      cases guard <;> rw [usesArms] <;> simp only [List.mem_append]
      · exact Or.inr hu
      · exact Or.inr (Or.inr hu)
    have hs := block_into k (total_nodes k block (fun hk h => hb hk (hm _ (Or.inl h))) _ e1 h1) h6
    have ht := said_arms k as (fun hk h => hb hk (hm _ (Or.inr h))) _ _ h4
    cases guard <;> rw [saidArms, usesArms, hs, ht]

theorem total_parts (k : Bool) : (ps : List (Part (List TT))) → (k = true → .binder false ∉ usesParts k ps) →
    ∀ (s s' : StrEnc ι (List TT)) (r r' : Bool), parts s r ps = .ok (s', r') →
    totalStr k s' = totalStr k s ++ usesParts k ps
  | [], _, s, s', r, r', h => by cases h; exact (List.append_nil _).symm
  | .dollar cur :: ps, hb, s, s', r, r', h => by
    obtain ⟨s1, h1, h2⟩ := ok_bind h
    rw [total_parts k ps (fun hk hm => hb hk (by simp [usesParts, hm])) s1 s' _ _ h2, str_text k h1, usesParts,
      chars_dollar, List.append_assoc]
    rfl
  | .constant cur t :: ps, hb, s, s', r, r', h => by
    obtain ⟨s1, h1, h2⟩ := ok_bind h
    rw [total_parts k ps (fun hk hm => hb hk (by simp [usesParts, hm])) s1 s' _ _ h2, str_text k h1, usesParts,
      List.append_assoc]
  | .raw cur x :: ps, hb, s, s', r, r', h => by
    obtain ⟨s1, h1, h2⟩ := ok_bind h
    rw [total_parts k ps (fun hk hm => hb hk (by simp [usesParts, hm])) s1 s' _ _ h2, str_raw k h1, usesParts,
      List.append_assoc]
  | .ident cur name :: ps, hb, s, s', r, r', h => by
    obtain ⟨s1, h1, h2⟩ := ok_bind h
    rw [total_parts k ps (fun hk hm => hb hk (by simp [usesParts, hm])) s1 s' _ _ h2, str_eval k h1, usesParts,
      List.append_assoc]
    simp [said, saidOne, ItemStr.text]
  | .stream cur span content :: ps, hb, s, s', r, r', h => by
    obtain ⟨e1, h1, h2⟩ := ok_bind h
    obtain ⟨⟨r1, ss⟩, h2, h3⟩ := ok_bind h2
    obtain ⟨s1, h4, h5⟩ := ok_bind h3
    have hs := block_into k (total_nodes k content (fun hk hm => hb hk (by simp [usesParts, hm])) _ e1 h1) h2
    rw [total_parts k ps (fun hk hm => hb hk (by simp [usesParts, hm])) s1 s' _ _ h5, str_eval k h4, usesParts, hs,
      List.append_assoc]
  | .tt cur text :: ps, hb, s, s', r, r', h => by
    obtain ⟨s1, h1, h2⟩ := ok_bind h
    rw [total_parts k ps (fun hk hm => hb hk (by simp [usesParts, hm])) s1 s' _ _ h2, str_text k h1, usesParts,
      List.append_assoc]

end

end

/-! ## The parser of simple code -/

mutual

theorem shows_all : (ts : List TT) →
    chars (wordsAll ts).flatten = (leaves ts).flatMap (fun l => chars l.text)
  | [] => rfl
  | t :: ts => by
    rw [wordsAll, leaves, List.flatten_append, chars_append, List.flatMap_append, shows_one t, shows_all ts]

theorem shows_one : (t : TT) → chars t.words.flatten = (leavesOne t).flatMap (fun l => chars l.text)
  | .ident cur name => by simp [TT.words, leavesOne, Leaf.text]
  | .punct cur c j => by simp [TT.words, leavesOne, Leaf.text]
  | .str cur v text => by simp [TT.words, leavesOne, Leaf.text]
  | .char cur v text => by simp [TT.words, leavesOne, Leaf.text]
  | .lit cur text => by simp [TT.words, leavesOne, Leaf.text]
  | .group cur d content => by
    have := shows_all content
    rw [TT.words, leavesOne, List.cons_append, List.cons_append, List.flatten_cons, List.flatten_append, chars_append,
      chars_append, this, List.flatMap_cons, List.flatMap_append, opens_text]
    simp [closes_text]

end

theorem syn_shows : Shows syn := fun t => shows_one t

end Account

open Account

/-- C110. Every token of an accepted input is used, in the order of the input: as constant text,
as the value of a string, as a token of the Rust code, or it names the stream of a scope. The
others are the words, signs and delimiters of the macro. -/
theorem C110_used (S : Syn) (hS : Once.Cuts S) (hd : Shows S) (ts : List TT) (ns : List (Node (List TT)))
    (hp : Parses S ts ns) : Used (leaves ts) (uses true ns) :=
  accounted hS hd ((parses_iff S ts ns).1 hp)

variable {ι : Type}

/-- C110. The generated code has all that is in a template, in its order, and nothing else: the
characters of constant text, but for whitespace, and the Rust code. This is without scopes that
cannot name the stream, for which see `C109_code`. -/
theorem C110_said (span : Option Cur) (ns : List (Node (List TT))) (r : Bool) (ss : List (Stmt ι (List TT)))
    (h : Macro.quote span ns = .ok (r, ss)) : said false ss = uses false ns := by
  obtain ⟨e, h1, h2⟩ := ok_bind (x := nodes (startEnc span) ns) (f := Enc.intoOutput) h
  exact block_into false (total_nodes false ns (fun hk => by cases hk) _ e h1) h2

/-- C110. From the input to the generated code: every token is there in its order, as text or as
code, or it is one of the macro, if all scopes name the stream. -/
theorem C110_generated (S : Syn) (hS : Once.Cuts S) (hd : Shows S) (ts : List TT) (ns : List (Node (List TT)))
    (hp : Parses S ts ns) (hb : .binder false ∉ uses true ns) (span : Option Cur) (r : Bool)
    (ss : List (Stmt ι (List TT))) (h : Macro.quote span ns = .ok (r, ss)) : Used (leaves ts) (said true ss) := by
  obtain ⟨e, h1, h2⟩ := ok_bind (x := nodes (startEnc span) ns) (f := Enc.intoOutput) h
  rw [block_into true (total_nodes true ns (fun _ => hb) _ e h1) h2]
  exact C110_used S hS hd ts ns hp

/-- C110. A scope that cannot name the stream is written in front of the text before it, if there
is no whitespace between them: that text is still in the buffer of the encoder. -/
theorem C110_unbound : ∃ (ns : List (Node (List TT))) (ss : List (Stmt Str (List TT))),
    Parses syn ((lex .nightly ⟨1, 0, 0⟩ c!"a$(ref _ => f)").getD []) ns ∧ Macro.quote none ns = .ok (false, ss) ∧
      said true ss = [.binder false, .code (.tok (.ident ⟨⟨1, 12⟩, ⟨1, 13⟩⟩ ['f'])), .char 'a'] ∧
      uses true ns = [.char 'a', .binder false, .code (.tok (.ident ⟨⟨1, 12⟩, ⟨1, 13⟩⟩ ['f']))] :=
  ⟨[.tree ⟨⟨1, 0⟩, ⟨1, 1⟩⟩ ['a'], .scope ⟨⟨1, 1⟩, ⟨1, 14⟩⟩ false [.ident ⟨⟨1, 12⟩, ⟨1, 13⟩⟩ ['f']]], _,
    ⟨20, rfl⟩, rfl, rfl, rfl⟩

example : (match parseAll syn 20 onceSource with
    | some ns => (Macro.quote (ι := Str) none ns).toBool && (uses true ns).length == 7 &&
        (leaves onceSource).length == 22
    | none => false) = true := by decide +kernel

end Genco.Props
