import Verif.Model.Formatter

/-!
# What a file with a header should look like
-/

set_option autoImplicit false

namespace Genco.Spec

variable {ι : Type}

/-- The lines of a file: the header, one blank line, the body. A body without
any text is the single empty line; it adds nothing. -/
def fileLines (header body : List Str) : List Str :=
  if header = [] then body
  else if body = [[]] then header
  else header ++ [] :: body

/-- Paragraphs of lines, separated by blank lines; empty ones are left out. -/
def paragraphs : List (List Str) → List Str
  | [] => []
  | p :: ps =>
    if p = [] then paragraphs ps
    else if paragraphs ps = [] then p
    else p ++ [] :: paragraphs ps

/-- A space request comes before the first text of the stream. `itemText` gives
the texts of language items; quotes write their delimiters. -/
def leadsWithSpace (itemText : ι → List Str) : List (Item ι) → Bool
  | [] => false
  | .space :: _ => true
  | .literal s :: r => s.text = [] && leadsWithSpace itemText r
  | .lang _ i :: r => (itemText i).flatten = [] && leadsWithSpace itemText r
  | .push :: r | .line :: r | .indentation _ :: r | .register _ _ :: r => leadsWithSpace itemText r
  | _ => false

/-- A request for a blank line comes before the first text of the stream. -/
def breaksFirst (itemText : ι → List Str) : List (Item ι) → Bool
  | [] => false
  | .line :: _ => true
  | .literal s :: r => s.text = [] && breaksFirst itemText r
  | .lang _ i :: r => (itemText i).flatten = [] && breaksFirst itemText r
  | .push :: r | .space :: r | .indentation _ :: r | .register _ _ :: r => breaksFirst itemText r
  | _ => false

/-- Before the first text of the stream a space is asked for, and behind it a blank
line. At the start of the output the space stays, behind a header it does not. -/
def losesSpace (itemText : ι → List Str) : List (Item ι) → Bool
  | [] => false
  | .space :: r => breaksFirst itemText r || losesSpace itemText r
  | .literal s :: r => s.text = [] && losesSpace itemText r
  | .lang _ i :: r => (itemText i).flatten = [] && losesSpace itemText r
  | .push :: r | .line :: r | .indentation _ :: r | .register _ _ :: r => losesSpace itemText r
  | _ => false

/-- The stream without the spaces that are asked for before the first text and before
a request for a blank line. -/
def settled (itemText : ι → List Str) : List (Item ι) → List (Item ι)
  | [] => []
  | .space :: r => if breaksFirst itemText r then settled itemText r else .space :: settled itemText r
  | .literal s :: r => .literal s :: if s.text = [] then settled itemText r else r
  | .lang p i :: r => .lang p i :: if (itemText i).flatten = [] then settled itemText r else r
  | .push :: r => .push :: settled itemText r
  | .line :: r => .line :: settled itemText r
  | .indentation n :: r => .indentation n :: settled itemText r
  | .register p i :: r => .register p i :: settled itemText r
  | l => l

end Genco.Spec
