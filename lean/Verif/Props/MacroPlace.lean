import Verif.Proofs.MacroPlace
import Verif.Proofs.Fake
import Verif.Props.Macro

/-!
# Places of the nodes of a macro
-/

set_option autoImplicit false

namespace Genco.Props

open Spec Spec.MacroFile Macro MacroSample

variable {ι E Env : Type}

/-! ## All on one line -/

/-- C64. A macro with all nodes on one line is accepted. The calls it generates never break
the line or change the indentation, if neither control functions nor Rust code do. -/
theorem C64_one_line (H : Host ι E Env) (l : Nat) (breaks : Bool) (span : Option Cur) (hc : ∀ c ∈ span, Here l c)
    (ns : List (Node E)) (hn : OneLine l breaks ns) :
    ∃ r ss, Macro.quote (ι := ι) span ns = .ok (r, ss) ∧
      (breaks = false → (∀ ρ e, ∀ c ∈ H.value ρ e, ¬ BreakCall c) → (∀ ρ e, ∀ c ∈ H.scope ρ e, ¬ BreakCall c) →
        ∀ ρ, ∀ c ∈ runBlock H ρ ss, ¬ BreakCall c) := by
  by_cases hb : breaks = false ∧ (∀ ρ e, ∀ c ∈ H.value ρ e, ¬ BreakCall c) ∧
      (∀ ρ e, ∀ c ∈ H.scope ρ e, ¬ BreakCall c)
  · obtain ⟨hb, hv, hs⟩ := hb
    subst hb
    obtain ⟨qs, hq, cq⟩ := steps_here H l false (fun _ => hv) (fun _ => hs) ns hn
    obtain ⟨as, ha, ca⟩ := block_here l false span hc qs cq
    have : quoted H span ns = some as := by unfold quoted; rw [hq, Option.bind_some, ha]
    obtain ⟨ss, hss, he⟩ := (C55_meaning H span ns).2 as this
    refine ⟨_, ss, hss, fun _ _ _ ρ => ?_⟩
    rw [← calm_marks, he]
    exact calm_perform (ca rfl) ρ
  · have up : ∀ (ns : List (Node E)), OneLine l breaks ns → OneLine l true ns := by
      cases breaks with
      | true => exact fun _ h => h
      | false => exact fun ns h => oneLine_up l ns h
    obtain ⟨qs, hq, cq⟩ := steps_here H l true (by intro h; cases h) (by intro h; cases h) ns (up ns hn)
    obtain ⟨as, ha, -⟩ := block_here l true span hc qs cq
    have : quoted H span ns = some as := by unfold quoted; rw [hq, Option.bind_some, ha]
    obtain ⟨ss, hss, he⟩ := (C55_meaning H span ns).2 as this
    exact ⟨_, ss, hss, fun h1 h2 h3 => absurd ⟨h1, h2, h3⟩ hb⟩

/-- C64. Without positions from the compiler all places are on line 1. -/
theorem C64_compat (max : Nat) (a b : Str) : (∀ c ∈ compatCursor max a, Here 1 c) ∧
    ∀ c ∈ compatJoin max a b, Here 1 c := by
  constructor
  · intro c hc
    simp only [compatCursor, Option.bind_eq_bind, Option.mem_def, Option.bind_eq_some_iff] at hc
    obtain ⟨⟨x, y⟩, -, hc⟩ := hc
    cases hc
    exact ⟨rfl, rfl⟩
  · intro c hc
    simp only [compatJoin, Option.bind_eq_bind, Option.mem_def, Option.bind_eq_some_iff] at hc
    obtain ⟨⟨x, y⟩, -, ⟨z, w⟩, -, hc⟩ := hc
    cases hc
    exact ⟨rfl, rfl⟩

/-- A block of three lines as it looks with byte offsets for columns. -/
def MacroSample.flat : List (Node Str) := [tree 1 100 "if", tree 1 103 "x", .group ⟨⟨1, 105⟩, ⟨1, 125⟩⟩ .brace
  [tree 1 115 "y", tree 1 116 ";"]]

example : OneLine 1 false MacroSample.flat :=
  ⟨⟨rfl, rfl⟩, ⟨rfl, rfl⟩, ⟨⟨rfl, rfl⟩, ⟨rfl, rfl⟩, ⟨rfl, rfl⟩, trivial⟩, trivial⟩

example : out none MacroSample.flat = some ["if x { y; }".toList] := by decide +kernel

/-! ## Down the page -/

/-- C65. A macro whose nodes go down the page does not make the compiler panic. -/
theorem C65_no_panic (ns : List (Node E)) (h : ∃ m, Down 0 ns m) :
    Macro.quote (ι := ι) none ns ≠ .error .panic := by
  obtain ⟨m, h⟩ := h
  exact (fine_bind (fine_nodes ns none 0 m _ h (at_start 0)) (fun e he => fine_into he (fun _ h => by cases h))).1

/-- C65. The same for a macro in parentheses. -/
theorem C65_no_panic_span (c : Cur) (ns : List (Node E)) (h : Down c.start.line ns c.stop.line) :
    Macro.quote (ι := ι) (some c) ns ≠ .error .panic :=
  (fine_bind (fine_nodes ns _ _ _ _ h (at_span c)) (fun e he => fine_into he (by rintro f ⟨⟩; exact Nat.le_refl _))).1

/-- C65. What is written in the order of lines may panic all the same: `$(…)` with two lines
in a string. -/
theorem C65_string_negative : Macro.quote (ι := Str) (E := Str) none [.str ⟨⟨1, 0⟩, ⟨2, 4⟩⟩ ⟨⟨1, 6⟩, ⟨2, 4⟩⟩
    [.stream ⟨⟨1, 7⟩, ⟨2, 3⟩⟩ ⟨⟨1, 9⟩, ⟨1, 10⟩⟩ [.tree ⟨⟨1, 9⟩, ⟨1, 10⟩⟩ ['a'], .tree ⟨⟨2, 1⟩, ⟨2, 2⟩⟩ ['b']]]] =
    .error .panic := rfl

example : ∃ m, Down 0 [tree 1 4 "a", .loop ⟨⟨2, 4⟩, ⟨5, 5⟩⟩ [] [] [tree 3 8 "b", tree 4 8 "c"]] m :=
  ⟨5, 1, ⟨by decide, rfl⟩, 5, ⟨by decide, rfl, 4, 3, ⟨by decide, rfl⟩, 4, ⟨by decide, rfl⟩, Nat.le_refl _⟩, Nat.le_refl _⟩

example : Macro.quote (ι := Str) (E := Str) none [tree 2 4 "a", tree 1 4 "b"] = .error .panic := rfl

end Genco.Props
