import Verif.Proofs.Rounds
import Verif.Props.Source
import Verif.Spec.SourceFile

/-!
# C79: the parser ends, and accepts what the grammar says
-/

set_option autoImplicit false

namespace Genco.Props

open Genco Macro Spec Spec.Text Spec.MacroFile Spec.Template Proofs.Rounds

variable {ι Env : Type}

/-- C79. If the parsers of `syn` put no tokens back, the parser of the macros ends for every input,
however wrong it is: with or without a result, it calls itself at most about twice as deep as there are
tokens, and so do all the parsers it consists of. -/
theorem C79_ends (S : Syn) (hS : Takes S) (ts : List TT) (n : Nat) (hn : 2 * count ts + 2 ≤ n) :
    readAll S n ts ≠ .unfinished ∧ (readAll S n ts).result = parseAll S n ts ∧
      (∀ u, readInner S n u ts ≠ .unfinished) ∧ (∀ cur, readExpression S n cur ts ≠ .unfinished) ∧
      readArms S n ts ≠ .unfinished ∧ readParts S n ts ≠ .unfinished :=
  ⟨(ends hS n).all ts hn, (same S n).all ts, fun u => (ends hS n).inner u ts (by omega),
    fun cur => (ends hS n).expression cur ts (by omega), (ends hS n).arms ts (by omega),
    (ends hS n).parts ts (by omega)⟩

/-- C79. It gives the nodes the grammar says, and refuses exactly what is not in the grammar. -/
theorem C79_grammar (S : Syn) (hS : Takes S) (ts : List TT) (n : Nat) (hn : 2 * count ts + 2 ≤ n) :
    (∀ ns, readAll S n ts = .done ns ↔ Means S (.nodes ts ns)) ∧
      (readAll S n ts = .refused ↔ ∀ ns, ¬ Means S (.nodes ts ns)) := by
  have key : ∀ ns, readAll S n ts = .done ns ↔ Means S (.nodes ts ns) := by
    intro ns
    have e := (same S n).all ts
    rw [← parses_iff]
    constructor
    · intro h
      rw [h] at e
      exact ⟨n, e.symm⟩
    · rintro ⟨m, hm⟩
      have h1 : parseAll S n ts = some ns := by
        rw [all_enough hS ts hn]
        rcases Nat.le_total m (2 * count ts + 2) with h | h
        · exact all_mono S ts h _ hm
        · rwa [all_enough hS ts h] at hm
      rw [h1] at e
      cases h : readAll S n ts with
      | done a => rw [h] at e; cases e; rfl
      | refused => rw [h] at e; cases e
      | unfinished => rw [h] at e; cases e
  refine ⟨key, fun h ns hm => ?_, fun h => ?_⟩
  · rw [(key ns).2 hm] at h
    cases h
  · cases h' : readAll S n ts with
    | done ns => exact absurd ((key ns).1 h') (h ns)
    | refused => rfl
    | unfinished => exact absurd h' ((ends hS n).all ts hn)

/-- C79. An answer, whatever it is, does not depend on the depth that is allowed: for any parsers of `syn`, more depth changes
neither a result nor a refusal. -/
theorem C79_final (S : Syn) (ts : List TT) {n m : Nat} (hn : n ≤ m) (h : readAll S n ts ≠ .unfinished) :
    readAll S m ts = readAll S n ts := readAll_final S ts hn h

/-- With too little depth there is no answer; the refusal of a lonely `$[x]` stays. -/
example : (match readAll syn 2 [.ident ⟨⟨1, 0⟩, ⟨1, 1⟩⟩ ['a']] with | .unfinished => true | _ => false) = true ∧
    (match readAll syn 4 [.punct ⟨⟨1, 0⟩, ⟨1, 1⟩⟩ '$' false, .group ⟨⟨1, 1⟩, ⟨1, 4⟩⟩ .bracket [.ident ⟨⟨1, 2⟩, ⟨1, 3⟩⟩ ['x']]] with
      | .refused => true | _ => false) = true := by decide +kernel

theorem result_iff {α : Type} (x : Outcome α) (a : α) : x.result = some a ↔ x = .done a := by
  cases x <;> simp [Outcome.result]

theorem parse_iff {S : Syn} (hS : Takes S) {ts : List TT} {n : Nat} (hn : 2 * count ts + 2 ≤ n) (ns) :
    parseAll S n ts = some ns ↔ Means S (.nodes ts ns) := by
  rw [← (C79_grammar S hS ts n hn).1, ← (same S n).all, result_iff]

/-- C79. The parsers of `syn` in this model are like this, and text has at least as many characters as
tokens. So the model of `quote!` gives the statements the grammar says: the bound on the rounds in it
is never reached. -/
theorem C79_quote (C : Compiler) (i : Invocation) (ss : List (Stmt ι (List TT))) :
    i.quote C = some ss ↔ ∃ ts ns r, lex C i.place (textOf i.lines) = some ts ∧ Means syn (.nodes ts ns) ∧
      Macro.quote none ns = .ok (r, ss) := by
  unfold Invocation.quote
  constructor
  · intro h
    obtain ⟨ts, h1, h⟩ := Option.bind_eq_some_iff.1 h
    obtain ⟨ns, h2, h⟩ := Option.bind_eq_some_iff.1 h
    split at h
    · rename_i r ss' hq
      cases h
      exact ⟨ts, ns, r, h1, (parse_iff takes_syn (rounds_enough h1) ns).1 h2, hq⟩
    · cases h
  · rintro ⟨ts, ns, r, h1, h2, h3⟩
    have h2' := (parse_iff takes_syn (rounds_enough h1) ns).2 h2
    simp only [h1, h2', h3, Option.bind_some, bind]

/-- C79. `quote_in!` as well: the receiver is an expression before the arrow. -/
theorem C79_quote_in (C : Compiler) (i : Invocation) (ss : List (Stmt ι (List TT))) :
    i.quoteIn C = some ss ↔ ∃ ts e rest body ns r, lex C i.place (textOf i.lines) = some ts ∧
      syn.fullExpr ts = some (e, rest) ∧ fatArrow rest = some body ∧ Means syn (.nodes body ns) ∧
      Macro.quote none ns = .ok (r, ss) := by
  have size : ∀ {ts e rest body}, lex C i.place (textOf i.lines) = some ts → syn.fullExpr ts = some (e, rest) →
      fatArrow rest = some body → 2 * count body + 2 ≤ i.rounds := by
    intro ts e rest body h1 h2 h3
    have := rounds_enough h1
    have := takes_syn.fullExpr _ _ _ h2
    have := count_arrow h3
    omega
  unfold Invocation.quoteIn parseQuoteIn
  constructor
  · intro h
    obtain ⟨ts, h1, h⟩ := Option.bind_eq_some_iff.1 h
    obtain ⟨⟨e, ns⟩, h2, h⟩ := Option.bind_eq_some_iff.1 h
    obtain ⟨⟨e', rest⟩, k1, h2⟩ := Option.bind_eq_some_iff.1 h2
    obtain ⟨body, k2, h2⟩ := Option.bind_eq_some_iff.1 h2
    obtain ⟨ns', k3, h2⟩ := Option.bind_eq_some_iff.1 h2
    cases h2
    dsimp only at h k2
    split at h
    · rename_i r ss' hq
      cases h
      exact ⟨ts, e, rest, body, ns, r, h1, k1, k2, (parse_iff takes_syn (size h1 k1 k2) ns).1 k3, hq⟩
    · cases h
  · rintro ⟨ts, e, rest, body, ns, r, h1, h2, h3, h4, h5⟩
    have h4' := (parse_iff takes_syn (size h1 h2 h3) ns).2 h4
    simp only [h1, h2, h3, h4', h5, Option.bind_some, bind]

theorem known_given {K : Host ι Code Env} {ρ : Env} {L : Lang ι} {cfg : Config} {n : Str} {vs : List Str}
    (h : Known K ρ L cfg n vs) : Given syn K.anywhere ρ L cfg n vs :=
  ⟨by
    show keywords.contains n = false
    simpa using h.free, K.value ρ [n], fun cur => rfl, h.block⟩

/-- C78. The stream `quote!` makes of source text with names in it: on a nightly compiler it is
rendered as the lines of the text with the lines of the values in the places of the names. -/
theorem C78_quote (K : Host ι Code Env) (hv : ∀ ρ e, ∀ c ∈ K.value ρ e, ¬ EmptyCall c)
    (hs : ∀ ρ e, ∀ c ∈ K.scope ρ e, ¬ EmptyCall c) (ρ : Env) (L : Lang ι) (esc : Char → Str)
    (hQ : ∀ s, L.writeQuoted s = s.map esc) (cfg : Config) (v : Str → List Str) (line k off : Nat) (ls : List Str)
    (hl : ∀ l ∈ ls, '\n' ∉ l) (hp : Holed (Macro.textOf ls)) (hn : nested [] (Macro.textOf ls) = true)
    (ho : offside [] (pad k ls) = true) (hi : ∃ l ∈ ls, blank l = false)
    (hg : ∀ n ∈ names (Macro.textOf ls), Known K ρ L cfg n (v n)) :
    ∃ t, Invocation.make .nightly K ρ ⟨⟨line, k, off⟩, ls⟩ = some t ∧
      toVec L cfg t.items = some ((rendered cfg [] false (pad k ls)).flatMap (fill v)) := by
  obtain ⟨ts, ns, r, ss, h1, h2, h3, h4, -⟩ := C78_lines syn K.anywhere (fun ρ e => hv ρ _) (fun ρ e => hs ρ _) ρ L esc hQ
    cfg v line k off ls hl hp hn ho hi (fun n hn => known_given (hg n hn))
  have hq := (C79_quote .nightly ⟨⟨line, k, off⟩, ls⟩ ss).2 ⟨ts, ns, r, h1, (parses_iff _ _ _).1 h2, h3⟩
  exact ⟨_, by rw [Invocation.make, hq]; rfl, h4⟩

/-- C78. On other compilers it is rendered as one line like this. -/
theorem C78_quote_one_line (K : Host ι Code Env) (hv : ∀ ρ e, ∀ c ∈ K.value ρ e, ¬ EmptyCall c)
    (hs : ∀ ρ e, ∀ c ∈ K.scope ρ e, ¬ EmptyCall c) (ρ : Env) (L : Lang ι) (esc : Char → Str)
    (hQ : ∀ s, L.writeQuoted s = s.map esc) (cfg : Config) (v : Str → List Str) (p : Place) (ls : List Str)
    (hp : Holed (Macro.textOf ls)) (hn : nested [] (Macro.textOf ls) = true)
    (hi : blank (oneLine (Macro.textOf ls)) = false)
    (hg : ∀ n ∈ names (Macro.textOf ls), Known K ρ L cfg n (v n)) :
    ∃ t, Invocation.make .stable K ρ ⟨p, ls⟩ = some t ∧
      toVec L cfg t.items = some (fill v (tidy (oneLine (Macro.textOf ls)))) := by
  obtain ⟨ts, ns, r, ss, h1, h2, h3, h4⟩ := C78_one_line syn K.anywhere (fun ρ e => hv ρ _) (fun ρ e => hs ρ _) ρ L esc hQ
    cfg v p (Macro.textOf ls) hp hn hi (fun n hn => known_given (hg n hn))
  have hq := (C79_quote .stable ⟨p, ls⟩ ss).2 ⟨ts, ns, r, h1, (parses_iff _ _ _).1 h2, h3⟩
  exact ⟨_, by rw [Invocation.make, hq]; rfl, h4.lines⟩

/-! ## Samples -/

namespace RoundsSample

/-- Tokens of all kinds; nothing is in the text of which the parser could make nodes, but it ends. -/
def wrong : Str := c!"a { $(match x { 1 => { b $(for y in z join (, ) { $[str](c $(d)) }) }, 2 }) }"

/-- Whether the parser is finished, and has a result. -/
def verdict {α : Type} : Outcome α → Bool × Bool
  | .done _ => (true, true)
  | .refused => (true, false)
  | .unfinished => (false, false)

/-- There are tokens, and the parser refuses them. With fewer rounds it is not finished. -/
example : (lex .nightly ⟨1, 0, 0⟩ wrong).map (fun ts => (count ts, verdict (readAll syn 86 ts), verdict (readAll syn 24 ts))) =
    some (42, (true, false), (false, false)) := by decide +kernel

/-- A parser that does not put tokens back. -/
example : Takes syn := takes_syn

/-- The text and the values of the sample of C78. -/
def host : Host Str Code Unit where
  value _ e := TemplateSample.host.value () (match e with | [n] => n | _ => ['x'])
  scope _ _ := []
  iter _ _ _ := []
  test ρ _ := some ρ
  pick _ _ _ _ := none
  bind _ _ _ := ()

theorem known : ∀ n ∈ names (Macro.textOf SourceSample.text),
    Known host () TemplateSample.lang TemplateSample.cfg n (SourceSample.values n) := by
  intro n hn
  obtain ⟨h1, cs, h2, h3⟩ := SourceSample.given n hn
  refine ⟨?_, ?_⟩
  · have : keywords.contains n = false := h1
    simpa using this
  · have : host.value () [n] = cs := h2 ⟨⟨0, 0⟩, ⟨0, 0⟩⟩
    rwa [this]

example : ∃ t, Invocation.make .nightly host () ⟨⟨7, 4, 90⟩, SourceSample.text⟩ = some t ∧
    toVec TemplateSample.lang TemplateSample.cfg t.items = some [
      c!"let x = f(Point {", c!"  x: 1,", c!"  \"y\"", c!"}, [name + $]);",
      c!"if Point {", c!"  x: 1,", c!"  \"y\"", c!"} {", c!"  name", c!"", c!"}"] := by
  obtain ⟨t, h1, h2⟩ := C78_quote host (fun _ _ => TemplateSample.full () _) (fun _ _ _ h => by cases h) ()
    TemplateSample.lang _ (fun _ => rfl) TemplateSample.cfg SourceSample.values 7 4 90 SourceSample.text
    (by decide +kernel) (by decide +kernel) (by decide +kernel) (by decide +kernel) (by decide +kernel) known
  exact ⟨t, h1, h2.trans (by decide +kernel)⟩

end RoundsSample

end Genco.Props
