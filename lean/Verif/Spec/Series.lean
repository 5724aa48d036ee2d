import Verif.Spec.Layout

/-!
# Several files written with one writer: specification
-/

set_option autoImplicit false

namespace Genco.Spec

variable {ι : Type}

/-- The text that the first item of a stream stands for; requests for imports are not counted. Whitespace has
none. -/
def opening (L : Lang ι) : List (Item ι) → Str
  | .register _ _ :: r => opening L r
  | .literal s :: _ => s.text
  | .openQuote e :: _ => (L.openQuote e).flatten
  | .lang _ i :: _ => (L.langItem i).flatten
  | _ => []

/-- The stream has nothing but requests for imports. -/
def silent (l : List (Item ι)) : Bool := l.all fun | .register _ _ => true | _ => false

/-- The streams of a file begin with text, not with whitespace. -/
def Begins (L : Lang ι) : List (List (Item ι)) → Prop
  | [] => False
  | s :: ss => opening L s ≠ [] ∨ silent s = true ∧ Begins L ss

/-- Lines behind lines, where the first of the latter is added to the last of the former. -/
def weld (a b : List Str) : List Str := a.dropLast ++ (a.getLast?.getD [] ++ b.head?.getD []) :: b.tail

/-- Files written with one formatter, each given by what it asks for; `p` is what came before. Each file is laid
out as if it stood behind a text, at the level that all files before it have left, and ends with a newline. -/
def oneByOne (cfg : Config) : List Act → List (List Act) → Str
  | _, [] => []
  | p, f :: fs => (piecesFrom p f).flatMap (Piece.render cfg) ++ cfg.newline ++ oneByOne cfg (p ++ f ++ [.text ['x']]) fs

end Genco.Spec
