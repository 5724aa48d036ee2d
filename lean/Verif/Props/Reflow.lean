import Verif.Proofs.Relex
import Verif.Props.Escape
import Verif.Props.Macro
import Verif.Props.ConformanceLang

/-!
# C85: the layout of the source changes only whitespace of the output
-/

set_option autoImplicit false

namespace Genco.Props

open Genco.Spec Genco.Macro MacroFile Reflow

variable {ι E E' Env : Type}

/-- C85. Two macros whose nodes differ only in their places, with the same spaces in strings, say the same, letter by letter,
whitespace between texts aside; they insert the same values into the stream. If the language writes evaluations
uniformly and no string is opened directly in a string, the outputs differ only in whitespace. -/
theorem C85_nodes_partial (g : E → E') (K : Host ι E' Env) (ρ : Env) (span span' : Option Cur) {ns ns' : List (Node E)} {r r' : Bool}
    {ss ss' : List (Stmt ι E)} (h : Macro.quote span ns = .ok (r, ss)) (h' : Macro.quote span' ns' = .ok (r', ss'))
    (hb : Alike g ns ns') :
    spelt (history (runBlock (pull g K) ρ ss)).items = spelt (history (runBlock (pull g K) ρ ss')).items ∧
    inserted (runBlock (pull g K) ρ ss) = inserted (runBlock (pull g K) ρ ss') ∧
    ∀ (L : Lang ι) (esc : Char → Str), (∀ s, L.writeQuoted s = s.map esc) → ∀ cfg : Config, cfg.newline.filter inked = [] →
      Template.Uniform L (history (runBlock (pull g K) ρ ss)).items →
      sober [false] (history (runBlock (pull g K) ρ ss)).items = true →
      (toString L cfg (history (runBlock (pull g K) ρ ss)).items).map (List.filter inked) =
        (toString L cfg (history (runBlock (pull g K) ρ ss')).items).map (List.filter inked) := by
  have e : bare (marks (runBlock (pull g K) ρ ss)) = bare (marks (runBlock (pull g K) ρ ss')) := by
    rw [C55_content (pull g K) span ns r ss h ρ, C55_content (pull g K) span' ns' r' ss' h' ρ, told_bones, told_bones]
    rw [show bones g ns = bones g ns' from hb]
  refine ⟨spelt_of_bare e, inserted_of_bare e, fun L esc hQ cfg hn hU hs => ?_⟩
  exact same_ink L (homQuote_of_map L esc hQ) cfg hn (spelt_of_bare e) hU hs

/-- C85. The same tokens in other places are accepted as well, and read as the same macro: with the same spaces in strings, the
nodes differ only in their places. -/
theorem C85_tokens {S : Syn} (hS : Blind S) {ts ts' : List TT} (ht : tokensOf ts' = tokensOf ts) {ns : List (Node (List TT))}
    (h : Parses S ts ns) : ∃ ns', Parses S ts' ns' ∧ (gaps ns' = gaps ns → Alike tokensOf ns' ns) := by
  obtain ⟨ns', hm, hb⟩ := echo hS ((parses_iff S ts ns).1 h) ts' ht
  exact ⟨ns', (parses_iff S ts' ns').2 hm, alike_of_blank tokensOf hb⟩

/-- C85. A text gives the same tokens on every compiler and wherever it starts, and so does a text with other whitespace
between its tokens. -/
theorem C85_lexer (C C' : Compiler) (p p' : Genco.Macro.Place) {s s' : Str} (h : Respaced s s') :
    (lex C p s).map tokensOf = (lex C' p' s').map tokensOf :=
  lex_respaced h C C' p p'

theorem parses_unique {S : Syn} {ts : List TT} {ns ns'} (h : Parses S ts ns) (h' : Parses S ts ns') : ns = ns' := by
  obtain ⟨n, h⟩ := h
  obtain ⟨m, h'⟩ := h'
  have e1 := all_mono S ts (Nat.le_max_left n m) ns h
  have e2 := all_mono S ts (Nat.le_max_right n m) ns' h'
  exact Option.some.inj (e1.symm.trans e2)

/-- C85. The same for whole macros in source text: texts with the same tokens, on any compilers and at any places, with the
same spaces in strings. -/
theorem C85_text_partial (C C' : Compiler) (K : Host ι Code Env) (ρ : Env) (i i' : Invocation)
    (ht : (lex C i.place (Macro.textOf i.lines)).map tokensOf = (lex C' i'.place (Macro.textOf i'.lines)).map tokensOf)
    (hg : (nodesOf C i).map gaps = (nodesOf C' i').map gaps)
    {t t' : Tokens ι} (h : i.make C K ρ = some t) (h' : i'.make C' K ρ = some t') :
    spelt t.items = spelt t'.items ∧ t.items.filterMap langOf = t'.items.filterMap langOf ∧
    ∀ (L : Lang ι) (esc : Char → Str), (∀ s, L.writeQuoted s = s.map esc) → ∀ cfg : Config, cfg.newline.filter inked = [] →
      Template.Uniform L t.items → sober [false] t.items = true →
      (toString L cfg t.items).map (List.filter inked) = (toString L cfg t'.items).map (List.filter inked) := by
  obtain ⟨ss, hq, rfl⟩ := Option.map_eq_some_iff.1 h
  obtain ⟨ss', hq', rfl⟩ := Option.map_eq_some_iff.1 h'
  obtain ⟨ts, hl, hq⟩ := Option.bind_eq_some_iff.1 hq
  obtain ⟨ts', hl', hq'⟩ := Option.bind_eq_some_iff.1 hq'
  obtain ⟨ns, hp, hq⟩ := Option.bind_eq_some_iff.1 hq
  obtain ⟨ns', hp', hq'⟩ := Option.bind_eq_some_iff.1 hq'
  rw [hl, hl'] at ht
  have ht : tokensOf ts' = tokensOf ts := (Option.some.inj ht).symm
  have e1 : nodesOf C i = some ns := by rw [nodesOf, hl]; exact hp
  have e2 : nodesOf C' i' = some ns' := by rw [nodesOf, hl']; exact hp'
  rw [e1, e2] at hg
  have hg : gaps ns' = gaps ns := (Option.some.inj hg).symm
  obtain ⟨ms, hm, ha⟩ := C85_tokens blind_syn ht ⟨_, hp⟩
  have hu := parses_unique ⟨_, hp'⟩ hm
  subst hu
  have eK : K.anywhere = pull tokensOf K.anywhere := by
    simp only [Host.anywhere, pull, words_tokensOf]
    congr 1
    funext ρ e p q
    cases q <;> simp [words_tokensOf]
  cases hs : Macro.quote (ι := ι) none ns with
  | error x => rw [hs] at hq; cases hq
  | ok o =>
    cases hs' : Macro.quote (ι := ι) none ns' with
    | error x => rw [hs'] at hq'; cases hq'
    | ok o' =>
      rw [hs] at hq
      rw [hs'] at hq'
      obtain ⟨r, x⟩ := o
      obtain ⟨r', x'⟩ := o'
      cases hq
      cases hq'
      have := C85_nodes_partial tokensOf K.anywhere ρ none none hs hs' (ha hg).symm
      rw [← eK] at this
      refine ⟨this.1, ?_, this.2.2⟩
      have e := congrArg (List.filterMap langOf) this.1
      rw [inserted_spelt, inserted_spelt] at e
      exact e

/-! ## Examples -/

namespace ReflowSample

open Conformance

/-- A macro with a string, a hole and a comment. -/
def first : Invocation := ⟨⟨3, 0, 40⟩, [c!"fn $f() {", c!"  go($[str](a  $x.)); // go", c!"}"]⟩

/-- The same with other whitespace, somewhere else. -/
def second : Invocation := ⟨⟨9, 0, 200⟩, [c!"fn", c!" $f() {", c!"", c!"      go($[str](a  $x.)); // go", c!"", c!"  }"]⟩

def K : Host Js.Import Code Vars := (facts [(c!"f", put c!"main")]).host

/-- A check for one gap. -/
def checkGap (a w w' b s s' : Str) : Bool :=
  (lexFrom .nightly ⟨1, 0, 0⟩ .none a).isSome && !w.isEmpty && !w'.isEmpty && w.all Char.isWhitespace && w'.all Char.isWhitespace &&
    ((w.head? == some '\n' && w'.head? == some '\n') || !a.contains '/') && s == a ++ w ++ b && s' == a ++ w' ++ b

theorem gap_of (a w w' b : Str) {s s' : Str} (h : checkGap a w w' b s s' = true) : Respaced s s' := by
  simp only [checkGap, Bool.and_eq_true, Bool.or_eq_true, Bool.not_eq_true', List.all_eq_true, beq_iff_eq, List.isEmpty_eq_false_iff,
    List.contains_eq_mem, decide_eq_false_iff_not] at h
  obtain ⟨⟨⟨⟨⟨⟨⟨h1, h2⟩, h3⟩, h4⟩, h5⟩, h6⟩, rfl⟩, rfl⟩ := h
  exact .gap a w w' b h1 h2 h3 h4 h5 h6

theorem respaced : Respaced (Macro.textOf first.lines) (Macro.textOf second.lines) :=
  .trans (t := c!"fn\n $f() {\n  go($[str](a  $x.)); // go\n}")
    (gap_of c!"fn" c!" " c!"\n " c!"$f() {\n  go($[str](a  $x.)); // go\n}" (by decide +kernel))
    (.trans (t := c!"fn\n $f() {\n\n      go($[str](a  $x.)); // go\n}")
      (gap_of c!"fn\n $f() {" c!"\n  " c!"\n\n      " c!"go($[str](a  $x.)); // go\n}" (by decide +kernel))
      (gap_of c!"fn\n $f() {\n\n      go($[str](a  $x.)); // go" c!"\n" c!"\n\n  " c!"}" (by decide +kernel)))

theorem made : (first.make .nightly K []).isSome = true ∧ (second.make .stable K []).isSome = true := by decide +kernel

theorem is_sober : (first.make .nightly K []).map (fun t => sober [false] t.items) = some true := by decide +kernel

theorem apart : (first.make .nightly K []).map (·.items) ≠ (second.make .stable K []).map (·.items) := by decide +kernel

theorem same_gaps : (nodesOf .nightly first).map gaps = (nodesOf .stable second).map gaps := by decide +kernel

theorem js_quotes : ∃ esc : Char → Str, ∀ s, Js.lang.writeQuoted s = s.map esc := ⟨_, fun _ => rfl⟩

theorem js_uniform (l : List (Item Js.Import)) : Template.Uniform Js.lang l := .inl fun _ => rfl

/-- What they are. -/
example : (first.make .nightly K []).bind (fun t => toVec Js.lang cfg t.items) =
      some [c!"fn main() {", c!"    go(`a  ${x}.`);", c!"}"] ∧
    (second.make .stable K []).bind (fun t => toVec Js.lang cfg t.items) = some [c!"fn main() { go(`a  ${x}.`); }"] := by
  decide +kernel

mutual

/-- A check for equal tokens. -/
def sameTokens : List TT → List TT → Bool
  | [], [] => true
  | t :: ts, u :: us => sameToken t u && sameTokens ts us
  | _, _ => false

def sameToken : TT → TT → Bool
  | .ident _ a, .ident _ b => a == b
  | .punct _ a j, .punct _ b k => a == b && j == k
  | .str _ a x, .str _ b y => a == b && x == y
  | .char _ a x, .char _ b y => a == b && x == y
  | .lit _ x, .lit _ y => x == y
  | .group _ d x, .group _ e y => d == e && sameTokens x y
  | _, _ => false

end

mutual

theorem sameTokens_eq : ∀ ts us : List TT, sameTokens ts us = true → tokensOf ts = tokensOf us
  | [], [], _ => rfl
  | t :: ts, u :: us, h => by
    simp only [sameTokens, Bool.and_eq_true] at h
    simp only [tokensOf, sameToken_eq t u h.1, sameTokens_eq ts us h.2]
  | [], _ :: _, h => by simp [sameTokens] at h
  | _ :: _, [], h => by simp [sameTokens] at h

theorem sameToken_eq : ∀ t u : TT, sameToken t u = true → token t = token u
  | .ident _ _, u, h => by cases u <;> simp_all [sameToken, token]
  | .punct _ _ _, u, h => by cases u <;> simp_all [sameToken, token]
  | .str _ _ _, u, h => by cases u <;> simp_all [sameToken, token]
  | .char _ _ _, u, h => by cases u <;> simp_all [sameToken, token]
  | .lit _ _, u, h => by cases u <;> simp_all [sameToken, token]
  | .group _ d x, .group _ e y, h => by
    simp only [sameToken, Bool.and_eq_true, beq_iff_eq] at h
    simp only [token, h.1, sameTokens_eq x y h.2]
  | .group _ _ _, .ident _ _, h => by simp [sameToken] at h
  | .group _ _ _, .punct _ _ _, h => by simp [sameToken] at h
  | .group _ _ _, .str _ _ _, h => by simp [sameToken] at h
  | .group _ _ _, .char _ _ _, h => by simp [sameToken] at h
  | .group _ _ _, .lit _ _, h => by simp [sameToken] at h

end

theorem sameTokens_opt {a b : Option (List TT)} (h : (a.bind fun x => b.map (sameTokens x)) = some true) :
    a.map tokensOf = b.map tokensOf := by
  cases a with
  | none => cases h
  | some x =>
    cases b with
    | none => cases h
    | some y => exact congrArg some (sameTokens_eq x y (Option.some.inj h))

attribute [irreducible] first second K

/-- The hypotheses of `C85_text_partial` hold, on different compilers; so the outputs have the same ink. -/
example : ∃ t t', first.make .nightly K [] = some t ∧ second.make .stable K [] = some t' ∧ t.items ≠ t'.items ∧
    (toString Js.lang cfg t.items).map (List.filter inked) = (toString Js.lang cfg t'.items).map (List.filter inked) := by
  obtain ⟨t, h⟩ := Option.isSome_iff_exists.1 made.1
  obtain ⟨t', h'⟩ := Option.isSome_iff_exists.1 made.2
  have hne := apart
  have hs := is_sober
  rw [h] at hs
  rw [h, h'] at hne
  obtain ⟨esc, he⟩ := js_quotes
  exact ⟨t, t', h, h', fun e => hne (congrArg some e),
    (C85_text_partial .nightly .stable K [] first second (C85_lexer _ _ _ _ respaced) same_gaps h h').2.2 Js.lang esc he cfg (by decide) (js_uniform _)
      (Option.some.inj hs)⟩

end ReflowSample

open Conformance in
/-- C85. In Dart, where an evaluation of one text has another form, a space in the source makes a difference to
more than whitespace: the tokens of `a.b` and `a. b` are the same. -/
theorem C85_negative :
    let a : Invocation := ⟨⟨1, 0, 0⟩, [c!"$[str]($(a.b))"]⟩
    let b : Invocation := ⟨⟨1, 0, 0⟩, [c!"$[str]($(a. b))"]⟩
    (lex .nightly a.place (Macro.textOf a.lines)).map tokensOf =
      (lex .nightly b.place (Macro.textOf b.lines)).map tokensOf ∧
    (nodesOf .nightly a).map gaps = (nodesOf .nightly b).map gaps ∧
    (a.make .nightly (Facts.host (ι := Dart.Import) {}) []).bind (fun t => toVec Dart.lang cfg t.items) = some [c!"\"$a.b\""] ∧
    (b.make .nightly (Facts.host (ι := Dart.Import) {}) []).bind (fun t => toVec Dart.lang cfg t.items) = some [c!"\"${a. b}\""] := by
  exact ⟨ReflowSample.sameTokens_opt (by decide +kernel), by decide +kernel⟩

end Genco.Props
