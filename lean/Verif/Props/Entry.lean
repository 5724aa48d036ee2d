import Verif.Proofs.Entry
import Verif.Props.Gaps
import Verif.Props.Macro

/-!
# The three macros
-/

set_option autoImplicit false

namespace Genco.Props

open Spec Spec.MacroFile Macro MacroSample

variable {ι E Env : Type}

/-! ## One meaning -/

/-- C89. The three macros are refused together, for the same reason, or accepted together; and then
appending what `quote_fn!` gives to a stream does to it what `quote_in!` does. -/
theorem C89_together (H : Host ι E Env) (supports : Bool) (ρ : Env) (ns : List (Node E)) :
    (∃ x, quoteMacro H supports ρ ns = .error x ∧ quoteFnMacro H supports ρ ns = .error x ∧
      ∀ t, quoteInMacro H supports ρ ns t = .error x) ∨
    ∃ u f, quoteMacro H supports ρ ns = .ok u ∧ quoteFnMacro H supports ρ ns = .ok f ∧
      f Tokens.new = u ∧ ∀ t, quoteInMacro H supports ρ ns t = .ok (f t) := by
  unfold quoteMacro quoteFnMacro quoteInMacro
  cases expand (ι := ι) supports ns with
  | error x => exact Or.inl ⟨x, rfl, rfl, fun _ => rfl⟩
  | ok ss => exact Or.inr ⟨_, _, rfl, rfl, rfl, fun _ => rfl⟩

/-- C89. Appending the stream `quote!` makes is making its calls in place, with `quote_in!` or
`quote_fn!`, if the macro starts with something other than whitespace: the very same stream comes
out. -/
theorem C89_in_place (H : Host ι E Env) (supports : Bool) (ρ : Env) (n : Node E) (ns : List (Node E))
    (h : Opens H ρ n) (u : Tokens ι) (hu : quoteMacro H supports ρ (n :: ns) = .ok u) (cs : List (Call ι)) :
    quoteInMacro H supports ρ (n :: ns) (history cs) = .ok ((history cs).appendTokens u) := by
  unfold quoteMacro at hu
  unfold quoteInMacro
  cases hx : expand (ι := ι) supports (n :: ns) with
  | error x => rw [hx] at hu; cases hu
  | ok ss =>
    rw [hx] at hu
    cases hu
    show Except.ok _ = Except.ok _
    have hf : Firmly (runBlock H ρ ss) := by
      unfold expand at hx
      split at hx
      · cases hx
      · rename_i req ss' hq
        split at hx
        · cases hx
        · cases hx; exact quote_firmly n ns h req ss hq
    obtain ⟨i, h1, h2⟩ := hf
    have := C10_append_open_partial cs (runBlock H ρ ss) i h1 h2
    show Except.ok _ = Except.ok ((history cs).appendTokens (history (runBlock H ρ ss)))
    rw [this, history_append]

/-- C89. Without the first node, the stream appended and the calls in place need not render alike. -/
theorem C89_in_place_negative : ∃ (ns : List (Node Str)) (u v : Tokens Str) (cs : List (Call Str)),
    quoteMacro host false 0 ns = .ok u ∧ quoteInMacro host false 0 ns (history cs) = .ok v ∧
      toString lang cfg v.items ≠ toString lang cfg ((history cs).appendTokens u).items :=
  ⟨[.control ⟨⟨1, 0⟩, ⟨1, 7⟩⟩ .push, .control ⟨⟨1, 7⟩, ⟨1, 14⟩⟩ .line, tree 1 14 "b"], _, _, [.space],
    rfl, rfl, by decide +kernel⟩

example : Opens host 0 (tree 1 0 "let") := by
  show "let".toList ≠ []
  decide

example : Opens host 0 (.eval ⟨⟨1, 0⟩, ⟨1, 2⟩⟩ ['x']) := ⟨_, rfl, rfl⟩

example : (quoteInMacro host false 0 [tree 1 0 "let", tree 1 4 "x", tree 2 2 "y"]
      (history [.append (.literal (.static ['a'])), .indent, .line])).toOption.bind
      (fun t => toVec lang cfg t.items) =
    some [['a'], [], "    let x".toList, "        y".toList] := by decide +kernel

/-! ## The languages that take them -/

/-- C89. A macro compiles for a language exactly if its layout does, and no string in it has a part
that is evaluated unless the language is Dart or JavaScript. -/
theorem C89_languages (H : Host ι E Env) (l : Target) (ρ : Env) (ns : List (Node E)) :
    (∃ u, quoteMacro H l.supportsEval ρ ns = .ok u) ↔
      (quoted H none ns).isSome = true ∧ (interpolated ns = true → l = .dart ∨ l = .js) := by
  obtain ⟨h1, h2⟩ := C55_meaning H none ns
  unfold quoteMacro expand
  cases hq : quoted H none ns with
  | none =>
    obtain ⟨x, hx⟩ := h1 hq
    rw [hx]
    simp [Except.map]
  | some as =>
    obtain ⟨ss, hs, -⟩ := h2 as hq
    rw [hs]
    cases hi : interpolated ns <;> cases l <;> simp [Except.map, Target.supportsEval]

/-- C89. What a language without support for interpolation accepts makes no calls for interpolation,
unless the Rust code in the macro does. -/
theorem C89_no_eval (H : Host ι E Env) (hv : ∀ ρ e, ∀ c ∈ H.value ρ e, ¬ EvalCall c)
    (hs : ∀ ρ e, ∀ c ∈ H.scope ρ e, ¬ EvalCall c) (ρ : Env) (ns : List (Node E)) (ss : List (Stmt ι E))
    (h : expand false ns = .ok ss) : ∀ c ∈ runBlock H ρ ss, ¬ EvalCall c := by
  unfold expand at h
  split at h
  · cases h
  · rename_i req ss' hq
    cases req with
    | true => simp at h
    | false =>
      cases h
      have hi := C58_requirements H none ns false ss hq
      obtain ⟨e, h1, h2⟩ := ok_bind (x := nodes (startEnc none) ns) (f := Enc.intoOutput) hq
      exact noEval_block H hv hs ns hi.symm none e false ss h1 h2 ρ

/-- C89. So its output does not depend on how the language writes interpolation: `start_string_eval`,
`end_string_eval`, `string_eval_literal`, and the delimiters of interpolated strings. -/
theorem C89_output (H : Host ι E Env) (hv : ∀ ρ e, ∀ c ∈ H.value ρ e, ¬ EvalCall c)
    (hs : ∀ ρ e, ∀ c ∈ H.scope ρ e, ¬ EvalCall c) (ρ : Env) (ns : List (Node E)) (u : Tokens ι)
    (h : quoteMacro H false ρ ns = .ok u) (L L' : Lang ι) (hL : SameButEval L L') (cfg : Config) :
    toString L cfg u.items = toString L' cfg u.items := by
  unfold quoteMacro at h
  cases hx : expand (ι := ι) false ns with
  | error x => rw [hx] at h; cases h
  | ok ss =>
    rw [hx] at h
    cases h
    exact toString_still hL cfg _ (still_history (C89_no_eval H hv hs ρ ns ss hx))

/-- With interpolation the output does depend on it, and only languages with support take the
macro. -/
example : let ns : List (Node Str) := [.str ⟨⟨1, 0⟩, ⟨1, 14⟩⟩ ⟨⟨1, 6⟩, ⟨1, 14⟩⟩ [.ident ⟨⟨1, 7⟩, ⟨1, 13⟩⟩ ['n']]]
    (quoteMacro host Target.rust.supportsEval 0 ns).toOption.isNone = true ∧
    (quoteMacro host Target.js.supportsEval 0 ns).toOption.bind (fun t => toString lang cfg t.items) = some "\"n\"".toList ∧
    (quoteMacro host Target.js.supportsEval 0 ns).toOption.bind
      (fun t => toString { lang with evalLiteral := fun s => [['$'], s] } cfg t.items) = some "\"$n\"".toList := by
  decide +kernel

example : (∀ ρ e, ∀ c ∈ host.value ρ e, ¬ EvalCall c) ∧ (∀ ρ e, ∀ c ∈ host.scope ρ e, ¬ EvalCall c) := by
  constructor
  · intro ρ e c hc
    simp only [host, List.mem_singleton] at hc
    subst hc
    exact noEval_item rfl
  · intro ρ e c hc
    simp only [host, List.mem_cons, List.not_mem_nil, or_false] at hc
    rcases hc with rfl | rfl | rfl
    · rintro ⟨i, hi, he⟩; simp only [callItems, List.mem_singleton] at hi; subst hi; cases he
    · exact noEval_item rfl
    · rintro ⟨i, hi, he⟩; simp only [callItems, List.mem_singleton] at hi; subst hi; cases he

end Genco.Props
