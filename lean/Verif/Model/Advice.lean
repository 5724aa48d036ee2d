import Verif.Model.Macro

/-!
# The text of layout errors
-/

set_option autoImplicit false

namespace Genco.Macro

/-- `{}` for a `usize`. -/
def usizeText (n : Nat) : Str := Nat.toDigits 10 n

/-- `if len == 1 { "space" } else { "spaces" }`, genco-macros/src/encoder.rs 459 and 468. -/
def spaceWord (len : Nat) : Str := if len = 1 then "space".toList else "spaces".toList

/-- The message of `indentation_error`, genco-macros/src/encoder.rs 448-470. -/
def indentationMessage (toColumn fromColumn : Nat) : Str :=
  if toColumn > fromColumn then
    let len := toColumn - fromColumn
    "expected ".toList ++ usizeText len ++ " less ".toList ++ spaceWord len ++ " of indentation".toList
  else
    let len := fromColumn - toColumn
    "expected ".toList ++ usizeText len ++ " more ".toList ++ spaceWord len ++ " of indentation".toList

/-- The message a compile error is reported with. The text of the other one is that of
genco-macros/src/string_parser.rs 196; a panic has none of its own. -/
def Err.message : Err → Option Str
  | .indentation to column => some (indentationMessage to column)
  | .lineBreak => some "string interpolations may not contain line breaks".toList
  | .panic => none

end Genco.Macro
