import Verif.Spec.Template

/-!
# Templates with holes that write nothing

Which of them can be taken out of the source, and what is left.
-/

set_option autoImplicit false

namespace Genco.Spec.Template

open Genco.Macro MacroFile

variable {ι E Env : Type}

/-- A hole that writes nothing. `void` tells which do. -/
def Slot.void (void : (Cur → Node E) → Bool) : Slot E → Bool
  | .word _ => false
  | .hole _ n => void n

/-- Nothing is written for the line. -/
def Row.void (void : (Cur → Node E) → Bool) (l : Row E) : Bool := l.slots.all (Slot.void void)

/-- What is left behind the first thing on a line. `gap` are the spaces since the last thing left. -/
def leftRest (void : (Cur → Node E) → Bool) : Nat → List (Nat × Slot E) → List (Nat × Slot E)
  | _, [] => []
  | gap, (n, s) :: r => if s.void void then leftRest void (gap + n) r else (gap + n, s) :: leftRest void 0 r

/-- What is left of lines. `prev` is the column of the line above, and `blank` are the blank lines
above it since the last line left; those do not count if the column changes. -/
def leftRows (void : (Cur → Node E) → Bool) : Option Nat → Nat → List (Row E) → List (Row E)
  | _, _, [] => []
  | prev, blank, l :: ls =>
    if l.void void then leftRows void (some l.column) (if prev = some l.column then blank + l.above else l.above) ls
    else ⟨if prev = some l.column then blank + l.above else l.above, l.column, l.first, leftRest void 0 l.rest⟩ ::
      leftRows void (some l.column) 0 ls

/-- The column of the first line left. -/
def nextColumn (void : (Cur → Node E) → Bool) : List (Row E) → Option Nat
  | [] => none
  | l :: ls => if l.void void then nextColumn void ls else some l.column

/-- Lines that can be taken out: a line on which nothing is written is at the column of the line
above it or of the next line left, or there is none. No other line starts with a hole that writes
nothing. -/
def Tidy (void : (Cur → Node E) → Bool) : Nat → List (Row E) → Prop
  | _, [] => True
  | prev, l :: ls =>
    (if l.void void then l.column = prev ∨ nextColumn void ls = some l.column ∨ nextColumn void ls = none
      else l.first.void void = false) ∧ Tidy void l.column ls

/-- Lines at the top that can be taken out: single holes at the column of the first line left. -/
def Top (void : (Cur → Node E) → Bool) (column : Nat) (top : List (Row E)) : Prop :=
  ∀ l ∈ top, l.void void = true ∧ l.rest = [] ∧ l.column = column

/-- The last thing on the last line writes something. -/
def Inked (void : (Cur → Node E) → Bool) (ls : List (Row E)) : Prop :=
  ∀ l, ls.getLast? = some l → ∀ s, l.slots.getLast? = some s → s.void void = false

/-- Something that can be on a line: text that is not empty, a hole that writes nothing, or a hole
that writes a block of code. -/
def SlotOr (H : Host ι E Env) (ρ : Env) (L : Lang ι) (cfg : Config) (void : (Cur → Node E) → Bool)
    (C : (Cur → Node E) → List (Call ι)) (V : (Cur → Node E) → List Str) : Slot E → Prop
  | .word s => s ≠ []
  | .hole _ n => if void n then Fills H ρ n [] else Hole H ρ L cfg n (C n) (V n)

end Genco.Spec.Template
