import Verif.Spec.Text
import Verif.Spec.Template

/-!
# Source text with interpolations

Text between the delimiters of a macro with `$name` and `$$` in it, and what it is with the names
replaced by lines. There are no tokens here, only characters and lines.
-/

set_option autoImplicit false

namespace Genco.Spec.Text

/-- Behind every dollar is a name, or another dollar that belongs to it. -/
def marked : Str → Bool
  | [] => true
  | '$' :: '$' :: r => marked r
  | '$' :: c :: r => nameChar c && !c.isDigit && marked r
  | ['$'] => false
  | _ :: r => marked r

/-- Text with interpolations, without strings and comments. -/
structure Holed (s : Str) : Prop where
  chars : s.all holeChar = true
  apart : apart s = true
  numbers : numbers none s = true
  marked : marked s = true

instance (s : Str) : Decidable (Holed s) :=
  decidable_of_iff (s.all holeChar = true ∧ Text.apart s = true ∧ Text.numbers none s = true ∧ Text.marked s = true)
    ⟨fun h => ⟨h.1, h.2.1, h.2.2.1, h.2.2.2⟩, fun h => ⟨h.1, h.2, h.3, h.4⟩⟩

/-- The names behind dollars. -/
def names : Str → List Str
  | [] => []
  | '$' :: '$' :: r => names r
  | '$' :: r => r.takeWhile nameChar :: names r
  | _ :: r => names r

/-- A text with the names replaced by lines: what is before goes on with the first line, and the
last line goes on with what is behind. So there is one line or more. `skip` is the length of the rest
of a name that has been replaced. -/
def filled (v : Str → List Str) : Nat → Str → List Str
  | _, [] => [[]]
  | skip + 1, _ :: r => filled v skip r
  | 0, '$' :: '$' :: r => Template.seam [['$']] [] (filled v 0 r)
  | 0, '$' :: r => Template.seam (v (r.takeWhile nameChar)) [] (filled v (r.takeWhile nameChar).length r)
  | 0, c :: r => Template.seam [[c]] [] (filled v 0 r)

/-- Indentation. -/
def indentChar (c : Char) : Bool := c == ' ' || c == '\t'

/-- A line with the names replaced by lines, all of them indented like it. -/
def fill (v : Str → List Str) (l : Str) : List Str :=
  (filled v 0 (l.dropWhile indentChar)).map (fun x => if x = [] then [] else l.takeWhile indentChar ++ x)

/-- The level of the last line that is not blank. -/
def lastDepth : List Nat → List Str → Nat
  | [], [] => 0
  | c :: past, [] => MacroFile.depth c past
  | past, l :: ls => if blank l then lastDepth past ls else lastDepth (columnOf l :: past) ls

end Genco.Spec.Text
