import Verif.Spec.Tokens

/-!
# Programs with helper functions
-/

set_option autoImplicit false

namespace Genco.Spec

variable {ι : Type}

/-- A step of a program that makes a stream: a call, or the use of a helper with a body of its own. -/
inductive Work (ι : Type) where
  | call (c : Call ι)
  | helper (body : List (Work ι))

/-- The calls of a program with helpers that write to the stream they are given. -/
def inPlace : List (Work ι) → List (Call ι)
  | [] => []
  | .call c :: r => c :: inPlace r
  | .helper b :: r => inPlace b ++ inPlace r

/-- Running a program with helpers that return a stream, which is appended. -/
def returned (t : Tokens ι) : List (Work ι) → Tokens ι
  | [] => t
  | .call c :: r => returned (c.run t) r
  | .helper b :: r => returned (t.appendTokens (returned Tokens.new b)) r

/-- Items do not start with whitespace. -/
def startsFirm (l : List (Item ι)) : Prop := ∀ i, l.head? = some i → isWs i = false

/-- Items do not end with whitespace. -/
def endsFirm (l : List (Item ι)) : Prop := ∀ i, l.getLast? = some i → isWs i = false

/-- Where a helper is used there is whitespace before its use, or at the start of what it makes, but
not both. The first argument has the items handed over before, in the same body. -/
def Joints : List (Item ι) → List (Work ι) → Prop
  | _, [] => True
  | p, .call c :: r => Joints (p ++ callItems c) r
  | p, .helper b :: r =>
    Joints [] b ∧ (endsFirm p ∨ startsFirm ((inPlace b).flatMap callItems)) ∧
      Joints (p ++ (inPlace b).flatMap callItems) r

end Genco.Spec
