import Verif.Proofs.MacroParse
import Verif.Props.Macro

/-!
# Input of the quoting macros
-/

set_option autoImplicit false

namespace Genco.Props

open Spec Spec.MacroFile Macro

variable {ι E Env : Type}

/-! ## Sample -/

namespace ParseSample

/-- An expression or a pattern is a word. -/
def take : List TT → Option (List TT × List TT)
  | .ident c w :: r => some ([.ident c w], r)
  | _ => none

def syn : Syn where
  expr := take
  fullExpr := take
  pat := take
  patMulti := take
  keyword w := w ∈ ["if".toList, "self".toList, "match".toList]
  display _ := ['?']

/-- At a place, and up to another one. -/
def at' (line column stop : Nat) : Cur := ⟨⟨line, column⟩, ⟨line, stop⟩⟩

def id' (line column : Nat) (s : String) : TT := .ident (at' line column (column + s.length)) s.toList

def pu (line column : Nat) (c : Char) (joint : Bool := false) : TT := .punct (at' line column (column + 1)) c joint

end ParseSample

open ParseSample

/-! ## Escape -/

/-- C66. Whatever the tokens are: if every dollar is doubled, a macro quotes them as they are,
with brackets of all kinds around what they enclose, and strings as quoted text. -/
theorem C66_escape (S : Syn) (mid : Cur → Pos) (ts : List TT) :
    ∃ ns, Parses S (doubled mid ts) ns ∧
      ∀ span, Macro.quote (ι := ι) span ns = Macro.quote span (spelled ts) :=
  ⟨wrapped ts, (parses_iff ..).2 (means_doubled S mid ts), fun span => by
    simp only [Macro.quote, nodes_wrapped]⟩

/-- C66. Tokens without a dollar are quoted as they are. -/
theorem C66_plain (S : Syn) (ts : List TT) (h : dollars ts = false) :
    ∃ ns, Parses S ts ns ∧ ∀ span, Macro.quote (ι := ι) span ns = Macro.quote span (spelled ts) := by
  have := C66_escape (ι := ι) S (fun c => c.start) ts
  rwa [doubled_plain _ _ h] at this

/-- C66. With C60: a block of tokens with any brackets, laid out by the off-side rule, comes out as
it is in the source. -/
theorem C66_lines (S : Syn) (H : Host ι (List TT) Env) (L : Lang ι) (cfg : Config) (line : Nat) (ls : List SrcLine)
    (ts : List TT) (h0 : ls ≠ []) (hi : ∀ l ∈ ls, Inked l) (ho : Offside [] ls) (hd : dollars ts = false)
    (hs : spelled ts = tokens (placeLines line ls)) :
    ∃ ns ss, Parses S ts ns ∧ Macro.quote (ι := ι) none ns = .ok (false, ss) ∧
      ∀ ρ, toVec L cfg (history (runBlock H ρ ss)).items = some (outLines cfg [] ls) := by
  obtain ⟨ns, hp, hq⟩ := C66_plain (ι := ι) S ts hd
  obtain ⟨ss, h1, h2⟩ := C60_lines H L cfg line ls h0 hi ho
  exact ⟨ns, ss, hp, by rw [hq, hs, h1], h2⟩

/-- ```
f() {
  x;
}
``` -/
def ParseSample.block : List TT :=
  [id' 1 0 "f", .group (at' 1 1 3) .parenthesis [], .group ⟨⟨1, 4⟩, ⟨3, 1⟩⟩ .brace [id' 2 2 "x", pu 2 3 ';']]

def ParseSample.lines : List SrcLine :=
  [⟨0, 0, ['f'], [(0, ['(']), (0, [')']), (1, ['{'])]⟩, ⟨0, 2, ['x'], [(0, [';'])]⟩, ⟨0, 0, ['}'], []⟩]

example : spelled ParseSample.block = tokens (placeLines 1 ParseSample.lines) := rfl

example : dollars ParseSample.block = false := rfl

example : Offside [] ParseSample.lines := ⟨.inl (by decide), .inr (.inr (by decide)), trivial⟩

example : ∀ l ∈ ParseSample.lines, Inked l := by
  intro l hl
  simp only [ParseSample.lines, List.mem_cons, List.not_mem_nil, or_false] at hl
  rcases hl with rfl | rfl | rfl <;> simp [Inked]

/-- `a $$ {$$}` quotes `a $ {$}`. -/
example : doubled (fun c => ⟨c.start.line, c.start.column + 1⟩)
    [id' 1 0 "a", .punct (at' 1 2 4) '$' false, .group (at' 1 5 9) .brace [.punct (at' 1 6 8) '$' false]] =
    [id' 1 0 "a", pu 1 2 '$' true, pu 1 3 '$', .group (at' 1 5 9) .brace [pu 1 6 '$' true, pu 1 7 '$']] := rfl

/-! ## Grammar -/

/-- C67. The parser accepts the grammar and nothing else, and reads it as the grammar says. -/
theorem C67_grammar (S : Syn) (ts : List TT) (ns) : Parses S ts ns ↔ Means S (.nodes ts ns) := parses_iff S ts ns

/-- C67. `quote_in!` takes a receiver, an arrow, and then the same. -/
theorem C67_quote_in (S : Syn) (ts e : List TT) (ns) :
    (∃ n, parseQuoteIn S n ts = some (e, ns)) ↔
      ∃ a b j r, S.fullExpr ts = some (e, arrow a b j ++ r) ∧ Means S (.nodes r ns) := by
  constructor
  · rintro ⟨n, h⟩
    obtain ⟨⟨e', r⟩, he, h⟩ := bind_some h
    obtain ⟨r', hr, h⟩ := bind_some h
    obtain ⟨ns', hn, h⟩ := bind_some h
    cases h
    obtain ⟨a, b, j, hr⟩ := arrow_of_fatArrow hr
    exact ⟨a, b, j, r', by rw [he, hr], (parses_iff ..).1 ⟨n, hn⟩⟩
  · rintro ⟨a, b, j, r, he, hm⟩
    obtain ⟨n, hn⟩ := (parses_iff ..).2 hm
    exact ⟨n, by simp [parseQuoteIn, he, fatArrow_arrow, hn]⟩

/-- C67. Nothing can be read in two ways. -/
theorem C67_unique (S : Syn) (ts : List TT) (ns ms) (h : Means S (.nodes ts ns)) (k : Means S (.nodes ts ms)) :
    ns = ms := by
  obtain ⟨n, hn⟩ := (parses_iff ..).2 h
  obtain ⟨m, hm⟩ := (parses_iff ..).2 k
  have h1 := all_mono S ts (Nat.le_max_left n m) _ hn
  have h2 := all_mono S ts (Nat.le_max_right n m) _ hm
  exact Option.some.inj (h1.symm.trans h2)

/-- C67. Inputs one behind the other are read one after the other, unless the first ends with a
single dollar, or with a control and the second begins with a parenthesis. -/
theorem C67_append (S : Syn) (ts us : List TT) (ns ms) (h : Parses S ts ns) (k : Parses S us ms) (ha : Apart ns us) :
    Parses S (ts ++ us) (ns ++ ms) :=
  (parses_iff ..).2 (means_append ((parses_iff ..).1 k) ((parses_iff ..).1 h) _ _ rfl ha)

/-- C67. A keyword behind a dollar is not evaluated: the two are text. -/
theorem C67_keyword (S : Syn) (a b : Cur) (j : Bool) (w : Str) (ts : List TT) (ns) (hw : S.keyword w = true)
    (h : Parses S ts ns) :
    Parses S (.punct a '$' j :: .ident b w :: ts) (.tree a ['$'] :: .tree b w :: ns) :=
  (parses_iff ..).2 (.alone hw (.word (t := .ident b w) rfl ((parses_iff ..).1 h)))

/-- `$(for x in xs join (, ) => $x)` -/
example : Parses syn
    [pu 1 0 '$', .group (at' 1 1 31) .parenthesis [id' 1 2 "for", id' 1 6 "x", id' 1 8 "in", id' 1 11 "xs",
      id' 1 14 "join", .group (at' 1 19 23) .parenthesis [pu 1 20 ','], pu 1 24 '=' true, pu 1 25 '>',
      pu 1 27 '$', id' 1 28 "x"]]
    [.joined (at' 1 0 31) [id' 1 6 "x"] [id' 1 11 "xs"] (at' 1 19 23) [.tree (at' 1 20 21) [',']]
      [.eval (at' 1 27 29) [id' 1 28 "x"]]] := ⟨20, by rfl⟩

/-- `$(match e { a => f(1, 2), b if c => { $$ } })` -/
example : Parses syn
    [pu 1 0 '$', .group (at' 1 1 40) .parenthesis [id' 1 2 "match", id' 1 8 "e", .group (at' 1 10 39) .brace
      [id' 1 12 "a", pu 1 14 '=' true, pu 1 15 '>', id' 1 17 "f",
        .group (at' 1 18 21) .parenthesis [pu 1 19 ',' ], pu 1 21 ',',
        id' 1 23 "b", id' 1 25 "if", id' 1 28 "c", pu 1 30 '=' true, pu 1 31 '>',
        .group (at' 1 33 38) .brace [pu 1 34 '$' true, pu 1 35 '$']]]]
    [.select (at' 1 0 40) [id' 1 8 "e"]
      [.mk [id' 1 12 "a"] none none [.tree (at' 1 17 18) ['f'], .group (at' 1 18 21) .parenthesis [.tree (at' 1 19 20) [',']]],
        .mk [id' 1 23 "b"] (some [id' 1 28 "c"]) none [.escape (at' 1 34 36)]]] := ⟨20, by rfl⟩

/-- `a $['\n'] (b)` is rejected, as the control seems to have an argument. -/
example : ¬ ∃ ns, Parses syn [id' 1 0 "a", pu 1 2 '$', .group (at' 1 3 9) .bracket [.char (at' 1 4 8) '\n' []],
    .group (at' 1 10 13) .parenthesis [id' 1 11 "b"]] ns := by
  rintro ⟨ns, h⟩
  cases (parses_iff ..).1 h with
  | word _ hm =>
    cases hm with
    | word hw => cases hw
    | alone ha => cases ha
    | control _ hc => cases hc

end Genco.Props
