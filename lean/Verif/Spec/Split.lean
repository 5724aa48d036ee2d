import Verif.Model.Item

/-!
# Splitting texts
-/

set_option autoImplicit false

namespace Genco.Spec

variable {ι : Type}

/-- Is it the start of an evaluation. -/
def opensEval : Item ι → Bool
  | .openEval => true
  | _ => false

/-- `SplitOf D b x y`: the stream `x` is the stream `y` with some literals split
into one or more consecutive literals of the same joined text. `b` says that the
stream follows the start of an evaluation; there a literal may only be split if
`D`. -/
inductive SplitOf (D : Prop) : Bool → List (Item ι) → List (Item ι) → Prop
  | nil {b} : SplitOf D b [] []
  | same {b x y} (i : Item ι) : SplitOf D (opensEval i) x y → SplitOf D b (i :: x) (i :: y)
  | split {b x y} (s : ItemStr) (l : List ItemStr) (t : ItemStr) (hb : b = true → D)
      (ht : t.text = s.text ++ (l.map ItemStr.text).flatten) :
      SplitOf D false x y →
      SplitOf D b (.literal s :: l.map .literal ++ x) (.literal t :: y)

end Genco.Spec
