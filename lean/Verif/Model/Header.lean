import Verif.Model.Btree
import Verif.Model.Escape

/-!
# Pieces of generated headers

The `imports` functions of the languages build their output with `quote_in!`.
On a compiler that gives the macro token positions, each such call expands to a
sequence of calls that append texts, spaces and quoted texts, in the order of
the source. `Bit` is one of these; neighbouring texts without space between them
are merged by the macro, which does not matter for the result.
-/

set_option autoImplicit false

namespace Genco

variable {ι : Type}

/-- One append of a `quote_in!` line. -/
inductive Bit where
  /-- A text. -/
  | lit (s : ItemStr)
  /-- `space()`. -/
  | space
  /-- `quoted(s)`, src/tokens/quoted.rs 54-77. -/
  | quoted (s : ItemStr)
  deriving DecidableEq, Repr

/-- The items appended. -/
def Bit.items : Bit → List (Item ι)
  | .lit s => [.literal s]
  | .space => [.space]
  | .quoted s => [.openQuote false, .literal s, .closeQuote]

/-- The items appended by a line. -/
def bitItems (l : List Bit) : List (Item ι) := l.flatMap Bit.items

/-- A text of the macro invocation: a static literal. -/
def word (s : String) : Bit := .lit (.static s.toList)

/-- A text appended as `&str`: a boxed literal. -/
def boxed (s : String) : Bit := .lit (.box s.toList)

/-- `str::rsplit(sep).next()` for `sep = "::"`: the part after the last `::`. On
the reversed text. -/
def revSeg2 : Str → Str
  | ':' :: ':' :: _ => []
  | c :: r => c :: revSeg2 r
  | [] => []

/-- `s.rsplit("::").next()`. -/
def lastSeg2 (s : Str) : Str := (revSeg2 s.reverse).reverse

/-- `s.split("::").count() > 1`: the text contains `::`. -/
def hasSep2 : Str → Bool
  | ':' :: ':' :: _ => true
  | _ :: r => hasSep2 r
  | [] => false

/-- `s.rsplit(c).next()` for a one-character separator. -/
def lastSeg1 (c : Char) (s : Str) : Str := (s.reverse.takeWhile (· ≠ c)).reverse

/-- `s.split(c).next()` for a one-character separator. -/
def firstSeg1 (c : Char) (s : Str) : Str := s.takeWhile (· ≠ c)

end Genco
