import Verif.Spec.Macro
import Verif.Spec.Shift
import Verif.Spec.Split

/-!
# Templates

Lines of source with constant text and with holes, and what is rendered for them: every hole is
replaced by the lines it is rendered to when it stands alone.
-/

set_option autoImplicit false

namespace Genco.Spec.Template

open Genco.Macro MacroFile

variable {ι E Env : Type}

/-! ## Source -/

/-- Something on a line: constant text, or a hole. A hole is any node, given its place. -/
inductive Slot (E : Type) where
  | word (s : Str)
  | hole (width : Nat) (n : Cur → Node E)

def Slot.width : Slot E → Nat
  | .word s => s.length
  | .hole w _ => w

def Slot.node (cur : Cur) : Slot E → Node E
  | .word s => .tree cur s
  | .hole _ n => n cur

/-- A line: the blank lines above, the column of the first thing on it, and the other things with
the number of spaces before them. -/
structure Row (E : Type) where
  above : Nat
  column : Nat
  first : Slot E
  rest : List (Nat × Slot E)

/-- The nodes of a line behind a column. -/
def placeRest (line column : Nat) : List (Nat × Slot E) → List (Node E)
  | [] => []
  | (n, s) :: r => s.node ⟨⟨line, column + n⟩, ⟨line, column + n + s.width⟩⟩ ::
    placeRest line (column + n + s.width) r

/-- The nodes of lines. `line` is the number of the first line. -/
def placeRows (line : Nat) : List (Row E) → List (Node E)
  | [] => []
  | l :: ls => l.first.node ⟨⟨line + l.above, l.column⟩, ⟨line + l.above, l.column + l.first.width⟩⟩ ::
    placeRest (line + l.above) (l.column + l.first.width) l.rest ++ placeRows (line + l.above + 1) ls

def openChar : Delimiter → Char
  | .parenthesis => '('
  | .brace => '{'
  | .bracket => '['

def closeChar : Delimiter → Char
  | .parenthesis => ')'
  | .brace => '}'
  | .bracket => ']'

mutual

/-- Brackets are constant text. -/
def flatten : List (Node E) → List (Node E)
  | [] => []
  | n :: ns => flattenNode n ++ flatten ns

def flattenNode : Node E → List (Node E)
  | .group cur d content =>
    .tree ⟨cur.start, ⟨cur.start.line, cur.start.column + 1⟩⟩ [openChar d] :: flatten content ++
      [.tree ⟨⟨cur.stop.line, cur.stop.column - 1⟩, cur.stop⟩ [closeChar d]]
  | .tree cur s => [.tree cur s]
  | .escape cur => [.escape cur]
  | .str cur paren ps => [.str cur paren ps]
  | .control cur k => [.control cur k]
  | .quoted cur s => [.quoted cur s]
  | .literal cur s => [.literal cur s]
  | .eval cur e => [.eval cur e]
  | .scope cur b c => [.scope cur b c]
  | .loop cur p i b => [.loop cur p i b]
  | .joined cur p i paren s b => [.joined cur p i paren s b]
  | .ifThen cur c t => [.ifThen cur c t]
  | .ifElse cur c t e => [.ifElse cur c t e]
  | .select cur e as => [.select cur e as]
  | .bind cur p e => [.bind cur p e]

end

/-- All lines keep to the off-side rule. -/
def Offside : List Nat → List (Row E) → Prop
  | _, [] => True
  | [], l :: ls => Offside [l.column] ls
  | p :: past, l :: ls => Legal l.column p past ∧ Offside (l.column :: p :: past) ls

/-- The level of the last line. -/
def lastLevel : List Nat → List (Row E) → Nat
  | [], [] => 0
  | c :: past, [] => depth c past
  | past, l :: ls => lastLevel (l.column :: past) ls

def Row.slots (l : Row E) : List (Slot E) := l.first :: l.rest.map (·.2)

/-! ## Result -/

/-- Two blocks of lines with a text between them: the last line of the first and the first of the
second become one. -/
def seam (a : List Str) (s : Str) (b : List Str) : List Str :=
  a.dropLast ++ (a.getLast?.getD [] ++ s ++ b.head?.getD []) :: b.tail

/-- The lines of a slot. `V` are the lines of the holes. -/
def Slot.lines (V : (Cur → Node E) → List Str) : Slot E → List Str
  | .word s => [s]
  | .hole _ n => V n

/-- The lines for a line of the source. -/
def Row.lines (V : (Cur → Node E) → List Str) (l : Row E) : List Str :=
  l.rest.foldl (fun a p => seam a (if p.1 = 0 then [] else [' ']) (p.2.lines V)) (l.first.lines V)

/-- The lines for all lines: those for a line are moved in to its level, and there is one blank
line for any number of blank lines. `past` are the columns of the lines above. -/
def outLines (cfg : Config) (V : (Cur → Node E) → List Str) : List Nat → List (Row E) → List Str
  | _, [] => []
  | past, l :: ls => (if 0 < l.above ∧ past ≠ [] then [[]] else []) ++
    ((l.lines V).map (movedIn cfg (depth l.column past)) ++ outLines cfg V (l.column :: past) ls)

/-! ## Cutting text -/

/-- A text letter by letter. -/
def spell : Str → List (Item ι)
  | [] => [.literal (.static [])]
  | c :: r => (c :: r).map (fun c => .literal (.static [c]))

/-- An item with its text letter by letter, and without internal numbers. -/
def letter : Item ι → List (Item ι)
  | .literal s => spell s.text
  | i => [erase i]

/-- A stream letter by letter. -/
def letters (l : List (Item ι)) : List (Item ι) := l.flatMap letter

/-- Evaluations are written in the same way whatever is in them, or there are none. -/
def Uniform (L : Lang ι) (l : List (Item ι)) : Prop :=
  (∀ s, L.evalLiteral s = L.startEval ++ [s] ++ L.endEval) ∨ ∀ i ∈ l, opensEval i = false

/-! ## Holes -/

/-- The place of a node that is one piece and says something. -/
def standsAt : Node E → Option Cur
  | .escape cur => some cur
  | .str cur _ _ => some cur
  | .quoted cur _ => some cur
  | .literal cur _ => some cur
  | .eval cur _ => some cur
  | .scope cur _ _ => some cur
  | .loop cur _ _ _ => some cur
  | .joined cur _ _ _ _ _ => some cur
  | .ifThen cur _ _ => some cur
  | .ifElse cur _ _ _ => some cur
  | .select cur _ _ => some cur
  | _ => none

/-- Calls that make a block of code: it starts and ends with visible text, strings are complete,
and it ends on the level it starts on without going further out. -/
structure Block (L : Lang ι) (cfg : Config) (cs : List (Call ι)) : Prop where
  first : ∃ x r, cs.flatMap callItems = x :: r ∧ isWs x = false
  last : ∃ r x, cs.flatMap callItems = r ++ [x] ∧ isWs x = false
  code : ∃ c : Code ι, c.plain = true ∧ letters (history cs).items = letters c.items ∧ Whole (seen (c.acts L cfg))

/-- A hole that writes a block: the macro for the hole alone makes the calls `cs`, wherever the hole
is, and leaves the variables alone. -/
structure Fills (H : Host ι E Env) (ρ : Env) (n : Cur → Node E) (cs : List (Call ι)) : Prop where
  stands : ∀ cur, standsAt (n cur) = some cur
  ink : ∀ cur, emptyTextNode (n cur) = false
  alone : ∀ cur, ∃ r ss, Macro.quote none [n cur] = .ok (r, ss) ∧ runBlock H ρ ss = cs ∧ leave H ρ ss = ρ

/-- A block of code that is rendered to the lines `vs`. -/
structure BlockOf (L : Lang ι) (cfg : Config) (cs : List (Call ι)) (vs : List Str) : Prop where
  block : Block L cfg cs
  uniform : Uniform L (cs.flatMap callItems)
  lines : toVec L cfg (history cs).items = some vs

/-- A hole that writes the block of code `cs`, which is rendered to the lines `vs`. -/
structure Hole (H : Host ι E Env) (ρ : Env) (L : Lang ι) (cfg : Config) (n : Cur → Node E) (cs : List (Call ι))
    (vs : List Str) : Prop extends BlockOf L cfg cs vs where
  fills : Fills H ρ n cs

/-- Something that can be on a line: text that is not empty, or such a hole. `C` are the calls and
`V` the lines of the holes. -/
def SlotIn (H : Host ι E Env) (ρ : Env) (L : Lang ι) (cfg : Config) (C : (Cur → Node E) → List (Call ι))
    (V : (Cur → Node E) → List Str) : Slot E → Prop
  | .word s => s ≠ []
  | .hole _ n => Hole H ρ L cfg n (C n) (V n)

/-! ## Loops -/

/-- A separator: a line break, maybe with a blank line; a space or nothing; or text, maybe with
space before and after it. -/
inductive Sep where
  | stack (blank : Bool)
  | gap (space : Bool)
  | text (before : Bool) (s : Str) (after : Bool)

/-- The calls a separator makes. -/
def Sep.calls : Sep → List (Call ι)
  | .stack b => [if b then .line else .push]
  | .gap b => if b then [.space] else []
  | .text b s a => (if b then [.space] else []) ++ .append (.literal (.static s)) :: (if a then [.space] else [])

/-- Two blocks of lines with a separator between them. -/
def Sep.between (a : List Str) (b : List Str) : Sep → List Str
  | .stack e => a ++ (if e then [[]] else []) ++ b
  | .gap e => seam a (if e then [' '] else []) b
  | .text p s q => seam a ((if p then [' '] else []) ++ s ++ (if q then [' '] else [])) b

/-- The separator is not an empty text. -/
def Sep.ok : Sep → Prop
  | .text _ s _ => s ≠ []
  | _ => True

/-- Blocks of lines with a separator between them. -/
def Sep.lines (p : Sep) : List (List Str) → List Str
  | [] => []
  | v :: vs => vs.foldl (fun a b => p.between a b) v

/-- Blocks with what is called between them. -/
def joinCalls (w : List (Call ι)) : List (List (Call ι)) → List (Call ι)
  | [] => []
  | [c] => c
  | c :: d :: r => c ++ w ++ joinCalls w (d :: r)

end Genco.Spec.Template
