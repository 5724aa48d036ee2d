import Verif.Spec.Macro
import Verif.Spec.Layout

/-!
# Plain source text

Text between the delimiters of a macro that has no dollar, no quotation mark and no comment, and
what should be rendered for it. There are no tokens here, only characters and lines.
-/

set_option autoImplicit false

namespace Genco.Spec.Text

open Spec.MacroFile

/-- Letters, digits and the underscore. -/
def nameChar (c : Char) : Bool := c.isAlphanum || c == '_'

/-- Other characters that are written one by one. -/
def symbol (c : Char) : Bool :=
  ['~', '!', '@', '#', '%', '^', '&', '*', '-', '=', '+', '|', ';', ':', ',', '<', '.', '>', '/', '?'].contains c

/-- The end of what is opened. -/
def closerOf : Char → Option Char
  | '(' => some ')'
  | '{' => some '}'
  | '[' => some ']'
  | _ => none

def isCloser (c : Char) : Bool := c == ')' || c == '}' || c == ']'

/-- Characters between tokens. -/
def blankChar (c : Char) : Bool := c == ' ' || c == '\n'

def plainChar (c : Char) : Bool :=
  nameChar c || symbol c || (closerOf c).isSome || isCloser c || blankChar c

/-- With the dollar of interpolations. -/
def holeChar (c : Char) : Bool := plainChar c || c == '$'

/-- The brackets match. `due` are the ends that are due. -/
def nested : List Char → Str → Bool
  | due, [] => due.isEmpty
  | due, c :: r =>
    match closerOf c with
    | some e => nested (e :: due) r
    | none =>
      if isCloser c then
        match due with
        | e :: due => c == e && nested due r
        | [] => false
      else nested due r

/-- No comment starts, and no `#` is behind a name. -/
def apart : Str → Bool
  | a :: b :: r => !(a == '/' && (b == '/' || b == '*')) && !(nameChar a && b == '#') && apart (b :: r)
  | _ => true

/-- Words that start with a digit have only digits. `inside` tells if the word that has been begun
is a number. -/
def numbers : Option Bool → Str → Bool
  | _, [] => true
  | none, c :: r => if nameChar c then numbers (some c.isDigit) r else numbers none r
  | some b, c :: r =>
    if nameChar c then (!b || (c.isDigit || c == '_')) && numbers (some b) r else numbers none r

/-- Text without interpolation. -/
structure Plain (s : Str) : Prop where
  chars : s.all plainChar = true
  apart : apart s = true
  numbers : numbers none s = true

instance (s : Str) : Decidable (Plain s) :=
  decidable_of_iff (s.all plainChar = true ∧ Text.apart s = true ∧ Text.numbers none s = true)
    ⟨fun h => ⟨h.1, h.2.1, h.2.2⟩, fun h => ⟨h.1, h.2, h.3⟩⟩

/-! ## What is rendered -/

/-- The column of the first character that is no space. -/
def columnOf (l : Str) : Nat := (l.takeWhile (· == ' ')).length

/-- Nothing but spaces. -/
def blank (l : Str) : Bool := l.all (· == ' ')

/-- Without the spaces in front of another one or of the end. -/
def squeeze : Str → Str
  | [] => []
  | c :: r => if c = ' ' ∧ (r = [] ∨ r.head? = some ' ') then squeeze r else c :: squeeze r

/-- A line without the spaces around it, and with single spaces in it. -/
def tidy (l : Str) : Str := squeeze (l.dropWhile (· == ' '))

/-- The columns of the lines that are not blank keep to the off-side rule. `past` are the columns
of the lines above, the nearest first. -/
def offside : List Nat → List Str → Bool
  | _, [] => true
  | past, l :: ls =>
    if blank l then offside past ls
    else (match past with
      | [] => true
      | p :: past => decide (Legal (columnOf l) p past)) && offside (columnOf l :: past) ls

/-- The same, but a line may also be further out than all lines above, if the line above is at the
outermost level. -/
def allowed : List Nat → List Str → Bool
  | _, [] => true
  | past, l :: ls =>
    if blank l then allowed past ls
    else (match past with
      | [] => true
      | p :: past => decide (Legal (columnOf l) p past ∨ Falls (columnOf l) p past)) && allowed (columnOf l :: past) ls

/-- Every line, tidied up and at the level of the off-side rule; one empty line for blank lines
between others. `gap` tells if there is a blank line above. -/
def rendered (cfg : Config) : List Nat → Bool → List Str → List Str
  | _, _, [] => []
  | past, gap, l :: ls =>
    if blank l then rendered cfg past true ls
    else (if gap ∧ past ≠ [] then [[]] else []) ++
      (marginText cfg (depth (columnOf l) past) ++ tidy l) :: rendered cfg (columnOf l :: past) false ls

/-- Text with a space for every line break. -/
def oneLine (s : Str) : Str := s.map (fun c => if c = '\n' then ' ' else c)

/-! ## Comments -/

/-- Text with spaces for comments to the end of a line, one for every byte. `inside` a comment. -/
def bare : (inside : Bool) → Str → Str
  | _, [] => []
  | true, c :: r => if c = '\n' then '\n' :: bare false r else List.replicate c.utf8Size ' ' ++ bare true r
  | false, [c] => [c]
  | false, c :: d :: r => if c = '/' ∧ d = '/' then ' ' :: ' ' :: bare true r else c :: bare false (d :: r)

/-- No such comment is documentation. -/
def undocumented : (inside : Bool) → Str → Bool
  | _, [] => true
  | true, c :: r => undocumented (c != '\n') r
  | false, [_] => true
  | false, c :: d :: r =>
    if c = '/' ∧ d = '/' then r.head? != some '/' && r.head? != some '!' && undocumented true r
    else undocumented false (d :: r)

/-- The first line with the spaces up to the column at which it starts. -/
def pad (k : Nat) : List Str → List Str
  | [] => []
  | l :: ls => (List.replicate k ' ' ++ l) :: ls

end Genco.Spec.Text
