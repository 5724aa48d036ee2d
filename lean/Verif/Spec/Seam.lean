import Verif.Spec.Quoting
import Verif.Spec.Parted
import Verif.Spec.Tokens

/-!
# Where a stream leads to

The strings that are open behind a stream, and the level of indentation there.
-/

set_option autoImplicit false

namespace Genco.Spec

variable {ι : Type}

/-- What is open behind the items; `none` if they are malformed. A list of one list of frames
means that no string is open directly inside a string. -/
def marks (items : List (Item ι)) : Option MState := items.foldlM markStep [[⟨false, false⟩]]

/-- The indentations of a stream, without those in strings quoted inside strings, which are laid
out on their own. -/
def height : MState → List (Item ι) → Int
  | _, [] => 0
  | s, i :: r =>
    (match s with
      | [_] => indOf i
      | _ => 0) +
    (match markStep s i with
      | some s' => height s' r
      | none => 0)

/-- How a text is written behind the frames: escaped in a string. -/
def written (L : Lang ι) (f : MFrame) (s : Str) : Str :=
  if f.inQuote then (L.writeQuoted s).flatten else s

/-- Escaping neither makes a text vanish nor makes one up. -/
def Shows (L : Lang ι) : Prop := ∀ s, (L.writeQuoted s).flatten = [] ↔ s = []

end Genco.Spec
