import Verif.Model.Item

/-!
# Numbers in text
-/

set_option autoImplicit false

namespace Genco.Spec.SpanText

/-- Value of a digit. -/
def digitOf : Char → Option Nat
  | '0' => some 0
  | '1' => some 1
  | '2' => some 2
  | '3' => some 3
  | '4' => some 4
  | '5' => some 5
  | '6' => some 6
  | '7' => some 7
  | '8' => some 8
  | '9' => some 9
  | _ => none

/-- Digits and the number they stand for. -/
inductive Digits : Str → Nat → Prop
  | one {c : Char} {d : Nat} (h : digitOf c = some d) : Digits [c] d
  | more {s : Str} {n : Nat} {c : Char} {d : Nat} (hs : Digits s n) (h : digitOf c = some d) :
      Digits (s ++ [c]) (10 * n + d)

/-- A number, possibly with a plus sign. -/
def Numeral (s : Str) (n : Nat) : Prop := Digits s n ∨ ∃ r, s = '+' :: r ∧ Digits r n

/-- Digits of a number as printed. -/
def decimal (n : Nat) : Str :=
  (if n < 10 then [] else decimal (n / 10)) ++
    [match n % 10 with
      | 0 => '0' | 1 => '1' | 2 => '2' | 3 => '3' | 4 => '4'
      | 5 => '5' | 6 => '6' | 7 => '7' | 8 => '8' | _ => '9']
termination_by n
decreasing_by omega

end Genco.Spec.SpanText
