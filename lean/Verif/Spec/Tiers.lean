import Verif.Spec.Quoting
import Verif.Spec.Tokens

/-!
# The levels of indentation in a stream with strings
-/

set_option autoImplicit false

namespace Genco.Spec

variable {ι : Type}

/-- The levels of the texts that are laid out, behind an item. The level of the innermost text is
the first. A string quoted inside a string is a text of its own, which starts at level 0; when
it is closed, the level of the text around it counts again. -/
def levelStep (ls : List Int) (s s' : MState) (i : Item ι) : List Int :=
  if s.length < s'.length then 0 :: ls
  else if s'.length < s.length then ls.tail
  else
    match ls with
    | l :: ls => (l + indOf i) :: ls
    | [] => []

/-- The levels behind each of the items, up to the first illegal one. -/
def tiers : List Int → MState → List (Item ι) → List Int
  | _, _, [] => []
  | ls, s, i :: r =>
    match markStep s i with
    | none => []
    | some s' => (levelStep ls s s' i).headD 0 :: tiers (levelStep ls s s' i) s' r

/-- The levels of a stream. -/
def streamLevels (items : List (Item ι)) : List Int := tiers [0] [[⟨false, false⟩]] items

end Genco.Spec
