import Verif.Spec.Macro
import Verif.Spec.Fake

/-!
# Reading layout errors
-/

set_option autoImplicit false

namespace Genco.Spec.Advice

open Genco.Macro Genco.Spec.MacroFile

/-- Someone who has a line at column `old` and does what the message asks for has it at column `new`. -/
inductive Moves : Str → Nat → Nat → Prop
  | lessOne (old : Nat) : Moves "expected 1 less space of indentation".toList (old + 1) old
  | moreOne (old : Nat) : Moves "expected 1 more space of indentation".toList old (old + 1)
  | less {d : Str} {n : Nat} (h : SpanText.Digits d n) (h1 : n ≠ 1) (new : Nat) :
      Moves ("expected ".toList ++ d ++ " less spaces of indentation".toList) (new + n) new
  | more {d : Str} {n : Nat} (h : SpanText.Digits d n) (h1 : n ≠ 1) (old : Nat) :
      Moves ("expected ".toList ++ d ++ " more spaces of indentation".toList) old (old + n)

/-- Tokens on one line, the first of them on the line where `stop` is: each begins on the line on which
the one before ends. -/
def Goes (stop : Pos) : List Tok → Prop
  | [] => True
  | t :: ts => stop.line = t.1.start.line ∧ Goes t.1.stop ts

end Genco.Spec.Advice
