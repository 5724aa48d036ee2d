import Verif.Model.Macro

/-!
# Positions without support of the compiler

On a compiler without `proc_macro_span` positions are taken from the debug text of a
span. `max` is `usize::MAX`.
-/

set_option autoImplicit false

namespace Genco.Macro

/-- `str::split_once("..")`, as used in genco-macros/src/fake.rs 137: what is before and
behind the first two dots. -/
def splitDots : Str → Option (Str × Str)
  | '.' :: '.' :: r => some ([], r)
  | c :: r => (splitDots r).map (fun p => (c :: p.1, p.2))
  | [] => none

/-- The digits of `usize::from_str`: checked multiplication and addition. -/
def parseDigits (max acc : Nat) : Str → Option Nat
  | [] => some acc
  | c :: r =>
    if '0' ≤ c ∧ c ≤ '9' then
      if acc * 10 ≤ max then
        if acc * 10 + (c.toNat - '0'.toNat) ≤ max then parseDigits max (acc * 10 + (c.toNat - '0'.toNat)) r
        else none
      else none
    else none

/-- `str::parse::<usize>`, as used in genco-macros/src/fake.rs 138: no empty text, no sign
alone, one plus sign at most. -/
def parseUsize (max : Nat) : Str → Option Nat
  | [] => none
  | ['+'] => none
  | ['-'] => none
  | '+' :: r => parseDigits max 0 r
  | r => parseDigits max 0 r

/-- `text.find('(')?` and `text.get(start + 1..text.len() - 1)?`, genco-macros/src/fake.rs
134-136. Offsets are in bytes: the last byte has to be a character, which must not be the
parenthesis. -/
def withinParens (text : Str) : Option Str :=
  match text.dropWhile (· ≠ '(') with
  | [] => none
  | _ :: rest =>
    match rest.getLast? with
    | none => none
    | some c => if c.utf8Size = 1 then some rest.dropLast else none

/-- `Buf::find_line_column_inner`, genco-macros/src/fake.rs 132-139. -/
def findLineColumn (max : Nat) (text : Str) : Option (Nat × Nat) := do
  let range ← withinParens text
  let (start, stop) ← splitDots range
  let a ← parseUsize max start
  let b ← parseUsize max stop
  some (a, b)

/-- `Buf::cursor`, genco-macros/src/fake.rs 68-90, without positions from the compiler. -/
def compatCursor (max : Nat) (text : Str) : Option Cur := do
  let (a, b) ← findLineColumn max text
  some ⟨⟨1, a⟩, ⟨1, b⟩⟩

/-- `Buf::join`, genco-macros/src/fake.rs 93-121, without positions from the compiler. -/
def compatJoin (max : Nat) (first second : Str) : Option Cur := do
  let (a, _) ← findLineColumn max first
  let (_, b) ← findLineColumn max second
  some ⟨⟨1, a⟩, ⟨1, b⟩⟩

end Genco.Macro
