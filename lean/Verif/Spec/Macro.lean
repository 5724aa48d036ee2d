import Verif.Model.Macro
import Verif.Spec.Gaps
import Verif.Spec.Tokens

/-!
# What a quoted block should become

Positions of the source are read line by line: the line of a piece is decided by
where it starts and where the one before ends. Indentation follows the off-side
rule.
-/

set_option autoImplicit false

namespace Genco.Spec.MacroFile

open Genco.Macro

variable {ι E : Type}

/-! ## Indentation -/

/-- As many indents as unindents, and never more unindents than indents before. -/
def Balanced (cs : List (Call ι)) : Prop :=
  indSum (cs.flatMap callItems) = 0 ∧ ∀ p, p <+: cs → 0 ≤ indSum (p.flatMap callItems)

/-- Columns of the lines that enclose a line at column `c`, innermost first, where
`past` are the columns of the lines above, nearest first: the nearest line that is
further out, the nearest line that is further out than that one, and so on. -/
def enclosing (c : Nat) : List Nat → List Nat
  | [] => []
  | p :: past => if p < c then p :: enclosing p past else enclosing c past

/-- The level of a line at column `c`. -/
def depth (c : Nat) (past : List Nat) : Nat := (enclosing c past).length

/-- A line at column `c` may follow a line at column `p`: it is further in, or the
column is the one of that line or of a line that encloses it. -/
def Legal (c p : Nat) (past : List Nat) : Prop := p < c ∨ c = p ∨ c ∈ enclosing p past

/-- The line is further out than all lines above, and none of them is further in
than the first. -/
def Falls (c p : Nat) (past : List Nat) : Prop := c < p ∧ enclosing p past = []

instance (c p : Nat) (past : List Nat) : Decidable (Legal c p past) :=
  inferInstanceAs (Decidable (_ ∨ _ ∨ _))

instance (c p : Nat) (past : List Nat) : Decidable (Falls c p past) :=
  inferInstanceAs (Decidable (_ ∧ _))

/-- The whitespace calls between two lines: from a level to the next, with or
without a blank line. -/
def breakCalls (old new : Nat) (blank : Bool) : List WsCall :=
  if old < new then .indent :: (if blank then [.line] else [])
  else if old = new then (if blank then [.line] else [.push])
  else (List.replicate (old - new) (.unindent :: (if blank then [.line] else []))).flatten

/-! ## Blocks of pieces -/

section Blocks

variable {α : Type}

/-- Whitespace for a piece at `start` behind a piece that ends at `stop` on a line
at column `p` below lines `past`. `none` if the source is not laid out properly. -/
def gapBefore (p : Nat) (past : List Nat) (stop start : Pos) : Option (List WsCall) :=
  if stop.line = start.line then
    some (if stop.column < start.column then [.space] else [])
  else if start.line < stop.line then none
  else if Falls start.column p past then some []
  else if Legal start.column p past then
    some (breakCalls (depth p past) (depth start.column (p :: past))
      (decide (start.line - stop.line > 1)))
  else none

/-- The pieces of a block with the whitespace between them, and in the end as many
unindents as there are open levels. `finish` is where the block ends, if that counts. -/
def laidOut (ws : WsCall → α) (finish : Option Pos) (p : Nat) (past : List Nat) (stop : Pos) :
    List (Cur × List α) → Option (List α)
  | [] =>
    match finish with
    | none => some ((List.replicate (depth p past) .unindent).map ws)
    | some f => (gapBefore p past stop f).map (fun w => (w ++ List.replicate
        (if stop.line = f.line then depth p past else depth f.column (p :: past)) .unindent).map ws)
  | (cur, ev) :: r =>
    (gapBefore p past stop cur.start).bind (fun w =>
      (if stop.line = cur.start.line then laidOut ws finish p past cur.stop r
        else laidOut ws finish cur.start.column (p :: past) cur.stop r).map
      (fun rest => w.map ws ++ ev ++ rest))

/-- A block from its first piece on, or from the given start. -/
def block (ws : WsCall → α) (span : Option (Pos × Pos)) (ps : List (Cur × List α)) :
    Option (List α) :=
  match span with
  | some (start, finish) => laidOut ws (some finish) start.column [] start ps
  | none =>
    match ps with
    | [] => some []
    | (cur, ev) :: r => (laidOut ws none cur.start.column [] cur.stop r).map (ev ++ ·)

end Blocks

/-! ## What pieces do -/

/-- What is done to the receiver. Constant text is told apart by characters. -/
inductive Mark (ι : Type) where
  | char (c : Char)
  | call (c : Call ι)

def markOf : Call ι → List (Mark ι)
  | .append (.literal (.static s)) => s.map .char
  | c => [.call c]

def marks (cs : List (Call ι)) : List (Mark ι) := cs.flatMap markOf

/-- What a piece does where variables have some meaning; it may give them another. -/
abbrev Step (ι Env : Type) := Env → Env × List (Mark ι)

def perform {Env : Type} (ρ : Env) : List (Step ι Env) → List (Mark ι)
  | [] => []
  | a :: as => (a ρ).2 ++ perform (a ρ).1 as

section Meaning

variable {Env : Type}

def Step.mark (m : Mark ι) : Step ι Env := fun ρ => (ρ, [m])

def Step.text (s : Str) : List (Step ι Env) := s.map (fun c => .mark (.char c))

def Step.call (c : Call ι) : Step ι Env := .mark (.call c)

def Step.ws (w : WsCall) : Step ι Env := .call w.call

/-- For every element, with the separator between the elements. The separator is in
the scope of the body. -/
def joinWith (body sep : List (Step ι Env)) : List Env → List (Mark ι)
  | [] => []
  | [x] => perform x body
  | x :: y :: r => perform x (body ++ sep) ++ joinWith body sep (y :: r)

/-- The first arm that takes the value. -/
def chosen (H : Host ι E Env) (ρ : Env) (e : E) : List (E × Option E × List (Step ι Env)) → List (Mark ι)
  | [] => []
  | (pat, guard, as) :: r =>
    match H.pick ρ e pat guard with
    | some ρ' => perform ρ' as
    | none => chosen H ρ e r

/-- Inside of a pair of parentheses. -/
def inner (paren : Cur) : Pos × Pos :=
  (⟨paren.start.line, paren.start.column + 1⟩, ⟨paren.stop.line, paren.stop.column - 1⟩)

/-- The part is evaluated when the string is. -/
def isEval : Part E → Bool
  | .ident .. => true
  | .stream .. => true
  | _ => false

def placeOf : Part E → Cur
  | .dollar cur => cur
  | .constant cur _ => cur
  | .raw cur _ => cur
  | .ident cur _ => cur
  | .stream cur _ _ => cur
  | .tt cur _ => cur

/-- The space between two places on a line. -/
def between (stop start : Pos) : Option Str :=
  if stop.line = start.line then some (List.replicate (start.column - stop.column) ' ') else none

variable (H : Host ι E Env)

mutual

/-- The pieces of a list of nodes, with what they do. -/
def stepsOf : List (Node E) → Option (List (Cur × List (Step ι Env)))
  | [] => some []
  | n :: ns => do
    let a ← stepOf n
    let b ← stepsOf ns
    some (a ++ b)

def stepOf : Node E → Option (List (Cur × List (Step ι Env)))
  | .tree cur text => some [(cur, Step.text text)]
  | .escape cur => some [(cur, Step.text ['$'])]
  | .str cur paren ps => do
    let as ← strActs (inner paren).1 (inner paren).2 ps
    some [(cur, Step.call (.append (.openQuote (ps.any isEval))) :: as ++ [Step.call (.append .closeQuote)])]
  | .control cur k => some [(cur, match k with
      | .space => [Step.call .space]
      | .push => [Step.call .push]
      | .line => [Step.call .line])]
  | .quoted cur s =>
    some [(cur, Step.call (.append (.openQuote false)) :: Step.text s ++ [Step.call (.append .closeQuote)])]
  | .literal cur s => some [(cur, Step.text s)]
  | .eval cur e => some [(cur, [fun ρ => (ρ, marks (H.value ρ e))])]
  | .scope cur bound content =>
    some [(cur, if bound then [fun ρ => (ρ, marks (H.scope ρ content))] else [])]
  | .loop cur pat iter body => do
    let as ← block .ws none (← stepsOf body)
    some [(cur, [fun ρ => (ρ, (H.iter ρ pat iter).flatMap (fun ρ' => perform ρ' as))])]
  | .joined cur pat iter paren sep body => do
    let ss ← block .ws (some (inner paren)) (← stepsOf sep)
    let as ← block .ws none (← stepsOf body)
    some [(cur, [fun ρ => (ρ, joinWith as ss (H.iter ρ pat iter))])]
  | .ifThen cur c t => do
    let as ← block .ws none (← stepsOf t)
    some [(cur, [fun ρ => (ρ, (H.test ρ c).elim [] (fun ρ' => perform ρ' as))])]
  | .ifElse cur c t e => do
    let as ← block .ws none (← stepsOf t)
    let bs ← block .ws none (← stepsOf e)
    some [(cur, [fun ρ => (ρ, (H.test ρ c).elim (perform ρ bs) (fun ρ' => perform ρ' as))])]
  | .select cur e arms => do
    let as ← armActs arms
    some [(cur, [fun ρ => (ρ, chosen H ρ e as)])]
  | .bind cur pat e => some [(cur, [fun ρ => (H.bind ρ pat e, [])])]
  | .group cur d content => do
    let ps ← stepsOf content
    some ((⟨cur.start, ⟨cur.start.line, cur.start.column + 1⟩⟩, Step.text [match d with
        | .parenthesis => '('
        | .brace => '{'
        | .bracket => '[']) :: ps ++
      [(⟨⟨cur.stop.line, cur.stop.column - 1⟩, cur.stop⟩, Step.text [match d with
        | .parenthesis => ')'
        | .brace => '}'
        | .bracket => ']'])])

def armActs : List (Arm E) → Option (List (E × Option E × List (Step ι Env)))
  | [] => some []
  | .mk pat guard paren body :: as => do
    let a ← block .ws (paren.map inner) (← stepsOf body)
    let b ← armActs as
    some ((pat, guard, a) :: b)

/-- The parts of a string behind `stop`, up to `close`. -/
def strActs (stop close : Pos) : List (Part E) → Option (List (Step ι Env))
  | [] => (between stop close).map Step.text
  | p :: ps => do
    let gap ← between stop (placeOf p).start
    let a ← partActs p
    let b ← strActs (placeOf p).stop close ps
    some (Step.text gap ++ a ++ b)

def partActs : Part E → Option (List (Step ι Env))
  | .dollar _ => some (Step.text ['$'])
  | .constant _ s => some (Step.text s)
  | .raw _ e => some [fun ρ => (ρ, marks (H.value ρ e))]
  | .ident _ name =>
    some (Step.call (.append .openEval) :: Step.text name ++ [Step.call (.append .closeEval)])
  | .stream _ span content => do
    let as ← block .ws (some (inner span)) (← stepsOf content)
    some (Step.call (.append .openEval) :: as ++ [Step.call (.append .closeEval)])
  | .tt _ text => some (Step.text text)

end

mutual

/-- Somewhere among the nodes is a string with a part that is evaluated. -/
def interpolated : List (Node E) → Bool
  | [] => false
  | n :: ns => interpolatedNode n || interpolated ns

def interpolatedNode : Node E → Bool
  | .str _ _ ps => ps.any isEval || interpolatedParts ps
  | .loop _ _ _ body => interpolated body
  | .joined _ _ _ _ sep body => interpolated sep || interpolated body
  | .ifThen _ _ t => interpolated t
  | .ifElse _ _ t e => interpolated t || interpolated e
  | .select _ _ arms => interpolatedArms arms
  | .group _ _ content => interpolated content
  | _ => false

def interpolatedArms : List (Arm E) → Bool
  | [] => false
  | .mk _ _ _ body :: as => interpolated body || interpolatedArms as

def interpolatedParts : List (Part E) → Bool
  | [] => false
  | p :: ps => interpolatedPart p || interpolatedParts ps

def interpolatedPart : Part E → Bool
  | .stream _ _ content => interpolated content
  | _ => false

end

mutual

/-- Somewhere among the nodes is an empty string, or a name without characters in a
string. -/
def emptyText : List (Node E) → Bool
  | [] => false
  | n :: ns => emptyTextNode n || emptyText ns

def emptyTextNode : Node E → Bool
  | .quoted _ s => s.isEmpty
  | .str _ _ ps => emptyTextParts ps
  | .loop _ _ _ body => emptyText body
  | .joined _ _ _ _ sep body => emptyText sep || emptyText body
  | .ifThen _ _ t => emptyText t
  | .ifElse _ _ t e => emptyText t || emptyText e
  | .select _ _ arms => emptyTextArms arms
  | .group _ _ content => emptyText content
  | _ => false

def emptyTextArms : List (Arm E) → Bool
  | [] => false
  | .mk _ _ _ body :: as => emptyText body || emptyTextArms as

def emptyTextParts : List (Part E) → Bool
  | [] => false
  | p :: ps => emptyTextPart p || emptyTextParts ps

def emptyTextPart : Part E → Bool
  | .ident _ name => name.isEmpty
  | .stream _ _ content => emptyText content
  | _ => false

end

/-! ## Content without layout -/

/-- Not one of the calls for whitespace. -/
def solid : Mark ι → Bool
  | .call .space => false
  | .call .push => false
  | .call .line => false
  | .call .indent => false
  | .call .unindent => false
  | _ => true

/-- What is left without whitespace. -/
def bare (ms : List (Mark ι)) : List (Mark ι) := ms.filter solid

/-- Elements with what is between them. -/
def alternate {α : Type} : List (List α) → List (List α) → List α
  | b :: bs, s :: ss => b ++ s ++ alternate bs ss
  | b :: _, [] => b
  | [], _ => []

/-- One after the other. -/
def andThen (f g : Step ι Env) : Step ι Env := fun ρ => ((g (f ρ).1).1, (f ρ).2 ++ (g (f ρ).1).2)

mutual

/-- What nodes say, in order. Where they are in the source does not matter, except within
strings. -/
def told : List (Node E) → Step ι Env
  | [] => fun ρ => (ρ, [])
  | n :: ns => andThen (toldNode n) (told ns)

def toldNode : Node E → Step ι Env
  | .tree _ text => fun ρ => (ρ, text.map .char)
  | .escape _ => fun ρ => (ρ, [.char '$'])
  | .str _ paren ps => fun ρ =>
    ((toldParts (inner paren).1 (inner paren).2 ps ρ).1,
      .call (.append (.openQuote (ps.any isEval))) :: (toldParts (inner paren).1 (inner paren).2 ps ρ).2 ++
        [.call (.append .closeQuote)])
  | .control _ _ => fun ρ => (ρ, [])
  | .quoted _ s => fun ρ => (ρ, .call (.append (.openQuote false)) :: s.map .char ++ [.call (.append .closeQuote)])
  | .literal _ s => fun ρ => (ρ, s.map .char)
  | .eval _ e => fun ρ => (ρ, bare (marks (H.value ρ e)))
  | .scope _ bound content => fun ρ => (ρ, if bound then bare (marks (H.scope ρ content)) else [])
  | .loop _ pat iter body => fun ρ => (ρ, (H.iter ρ pat iter).flatMap (fun ρ' => (told body ρ').2))
  | .joined _ pat iter _ sep body => fun ρ =>
    (ρ, alternate ((H.iter ρ pat iter).map (fun ρ' => (told body ρ').2))
      ((H.iter ρ pat iter).dropLast.map (fun ρ' => (told sep (told body ρ').1).2)))
  | .ifThen _ c t => fun ρ => (ρ, (H.test ρ c).elim [] (fun ρ' => (told t ρ').2))
  | .ifElse _ c t e => fun ρ => (ρ, (H.test ρ c).elim (told e ρ).2 (fun ρ' => (told t ρ').2))
  | .select _ e arms => fun ρ => (ρ, toldArms e arms ρ)
  | .bind _ pat e => fun ρ => (H.bind ρ pat e, [])
  | .group _ .parenthesis content => fun ρ => ((told content ρ).1, .char '(' :: (told content ρ).2 ++ [.char ')'])
  | .group _ .brace content => fun ρ => ((told content ρ).1, .char '{' :: (told content ρ).2 ++ [.char '}'])
  | .group _ .bracket content => fun ρ => ((told content ρ).1, .char '[' :: (told content ρ).2 ++ [.char ']'])

/-- The first arm that takes the value. -/
def toldArms (e : E) : List (Arm E) → Env → List (Mark ι)
  | [], _ => []
  | .mk pat guard _ body :: as, ρ =>
    match H.pick ρ e pat guard with
    | some ρ' => (told body ρ').2
    | none => toldArms e as ρ

/-- Within a string spaces are text. -/
def toldParts (stop close : Pos) : List (Part E) → Step ι Env
  | [] => fun ρ => (ρ, List.replicate (close.column - stop.column) (.char ' '))
  | p :: ps => andThen (fun ρ => (ρ, List.replicate ((placeOf p).start.column - stop.column) (.char ' ')))
    (andThen (toldPart p) (toldParts (placeOf p).stop close ps))

def toldPart : Part E → Step ι Env
  | .dollar _ => fun ρ => (ρ, [.char '$'])
  | .constant _ s => fun ρ => (ρ, s.map .char)
  | .raw _ e => fun ρ => (ρ, bare (marks (H.value ρ e)))
  | .ident _ name => fun ρ => (ρ, .call (.append .openEval) :: name.map .char ++ [.call (.append .closeEval)])
  | .stream _ _ content => fun ρ =>
    ((told content ρ).1, .call (.append .openEval) :: (told content ρ).2 ++ [.call (.append .closeEval)])
  | .tt _ text => fun ρ => (ρ, text.map .char)

end

/-- A call that appends constant text without characters. -/
def EmptyCall (c : Call ι) : Prop := c = .append (.literal (.static []))

/-- What a macro stands for. -/
def quoted (span : Option Cur) (ns : List (Node E)) : Option (List (Step ι Env)) :=
  (stepsOf H ns).bind (block .ws (span.map inner))

end Meaning

/-! ## Plain tokens -/

/-- A token: where it is, and its text. -/
abbrev Tok := Cur × Str

def tokens (ts : List Tok) : List (Node E) := ts.map (fun t => .tree t.1 t.2)

/-- The columns of the lines on which tokens are, last line first. The tokens are given
last one first. -/
def lineColumns : List Tok → List Nat
  | [] => []
  | [t] => [t.1.start.column]
  | t :: s :: r =>
    if s.1.stop.line = t.1.start.line then lineColumns (s :: r)
    else t.1.start.column :: lineColumns (s :: r)

/-- The level of the line of the last token. The tokens are given last one first. -/
def levelOf (r : List Tok) : Nat :=
  match lineColumns r with
  | [] => 0
  | c :: past => depth c past

/-- A token may follow others, given last one first: it is on the line of the last one, or
on a later line at a column that is allowed there. -/
def Follows (t : Tok) (r : List Tok) : Prop :=
  match r, lineColumns r with
  | s :: _, c :: past => s.1.stop.line = t.1.start.line ∨
    s.1.stop.line < t.1.start.line ∧ (Legal t.1.start.column c past ∨ Falls t.1.start.column c past)
  | _, _ => True

/-- The whitespace before a token that follows others, given last one first. -/
def gapFor (t : Tok) (r : List Tok) : List WsCall :=
  match r, lineColumns r with
  | s :: _, c :: past =>
    if s.1.stop.line = t.1.start.line then
      if s.1.stop.column < t.1.start.column then [.space] else []
    else if Falls t.1.start.column c past then []
    else breakCalls (levelOf r) (levelOf (t :: r)) (decide (s.1.stop.line + 1 < t.1.start.line))
  | _, _ => []

/-- Text among marks. -/
def textOf : List (Mark ι) → Str
  | [] => []
  | .char c :: ms => c :: textOf ms
  | _ :: ms => textOf ms

/-- Indents minus unindents. -/
def indentsOf : List (Mark ι) → Int
  | [] => 0
  | .call .indent :: ms => 1 + indentsOf ms
  | .call .unindent :: ms => -1 + indentsOf ms
  | _ :: ms => indentsOf ms

/-- Opening parenthesis, parts and closing parenthesis follow each other on one line. -/
def Unbroken (stop close : Pos) : List (Part E) → Prop
  | [] => stop.line = close.line
  | p :: ps => stop.line = (placeOf p).start.line ∧ Unbroken (placeOf p).stop close ps

/-! ## Source lines -/

/-- A line of tokens: the blank lines above, the column of the first token, and the other
tokens with the number of spaces before them. -/
structure SrcLine where
  above : Nat
  column : Nat
  first : Str
  rest : List (Nat × Str)

/-- The tokens of a line behind a column. -/
def placeRest (line column : Nat) : List (Nat × Str) → List Tok
  | [] => []
  | (n, s) :: r => (⟨⟨line, column + n⟩, ⟨line, column + n + s.length⟩⟩, s) ::
    placeRest line (column + n + s.length) r

def placeLine (line : Nat) (l : SrcLine) : List Tok :=
  (⟨⟨line, l.column⟩, ⟨line, l.column + l.first.length⟩⟩, l.first) ::
    placeRest line (l.column + l.first.length) l.rest

/-- The tokens of lines. `line` is the number of the first line. -/
def placeLines (line : Nat) : List SrcLine → List Tok
  | [] => []
  | l :: ls => placeLine (line + l.above) l ++ placeLines (line + l.above + 1) ls

/-- The text of tokens with all spaces before them. -/
def exactText (r : List (Nat × Str)) : Str := r.flatMap (fun p => List.replicate p.1 ' ' ++ p.2)

/-- The column behind tokens. -/
def endColumn (column : Nat) : List (Nat × Str) → Nat
  | [] => column
  | (n, s) :: r => endColumn (column + n + s.length) r

/-- The text of a line, with a space for any number of spaces. -/
def srcText (l : SrcLine) : Str :=
  l.first ++ l.rest.flatMap (fun p => (if p.1 = 0 then [] else [' ']) ++ p.2)

/-- The lines with the indentation of the off-side rule, and with a blank line for any
number of blank lines. `past` are the columns of the lines above. -/
def outLines (cfg : Config) : List Nat → List SrcLine → List Str
  | _, [] => []
  | past, l :: ls => (if 0 < l.above ∧ past ≠ [] then [[]] else []) ++
    (marginText cfg (depth l.column past) ++ srcText l) :: outLines cfg (l.column :: past) ls

/-- All lines keep to the off-side rule. -/
def Offside : List Nat → List SrcLine → Prop
  | _, [] => True
  | [], l :: ls => Offside [l.column] ls
  | p :: past, l :: ls => Legal l.column p past ∧ Offside (l.column :: p :: past) ls

/-- No token is empty. -/
def Inked (l : SrcLine) : Prop := l.first ≠ [] ∧ ∀ p ∈ l.rest, p.2 ≠ []

end Genco.Spec.MacroFile
