import Verif.Spec.Macro

/-!
# Control functions among texts

Texts, values that are one text, and `$[' ']`, `$['\r']`, `$['\n']` between them.
-/

set_option autoImplicit false

namespace Genco.Spec.Controls

open Genco.Macro MacroFile

variable {E : Type}

inductive Bit (E : Type) where
  | text (s : Str)
  | value (e : E)
  | control (k : ControlKind)

abbrev Piece (E : Type) := Cur × Bit E

def nodeOf : Piece E → Node E
  | (cur, .text s) => .tree cur s
  | (cur, .value e) => .eval cur e
  | (cur, .control k) => .control cur k

/-- What a control function asks for. -/
def request : ControlKind → WsCall
  | .space => .space
  | .push => .push
  | .line => .line

/-- What is between two texts, the second one on a line at `level`. -/
def separator (cfg : Config) (level : Nat) (w : List WsCall) : Str :=
  (List.replicate (gapBreaks w) cfg.newline).flatten ++
  (if gapBreaks w > 0 then marginText cfg level else []) ++
  List.replicate (gapSpaces w) ' '

/-- The text of pieces behind a text, where `w` was asked for since. The line before is at
column `p` below lines `past`, and ends at `stop`. The layout of the source asks for whitespace
between all pieces, and control functions ask for more. -/
def laid (cfg : Config) (say : E → Str) (p : Nat) (past : List Nat) (stop : Pos) (w : List WsCall) :
    List (Piece E) → Str
  | [] => []
  | (cur, b) :: r =>
    let here := if stop.line = cur.start.line then (p, past) else (cur.start.column, p :: past)
    let w := w ++ (gapBefore p past stop cur.start).getD []
    match b with
    | .control k => laid cfg say here.1 here.2 cur.stop (w ++ [request k]) r
    | .text s => separator cfg (depth here.1 here.2) w ++ s ++ laid cfg say here.1 here.2 cur.stop [] r
    | .value e => separator cfg (depth here.1 here.2) w ++ say e ++ laid cfg say here.1 here.2 cur.stop [] r

/-- The text of pieces on one line behind a text that ends at column `stop`, with control
functions `ks` since. -/
def laidOne (cfg : Config) (say : E → Str) (stop : Nat) (ks : List ControlKind) : List (Piece E) → Str
  | [] => []
  | (cur, b) :: r =>
    let sep :=
      (if .line ∈ ks then cfg.newline ++ cfg.newline else if .push ∈ ks then cfg.newline else []) ++
      (if stop < cur.start.column ∨ ks.getLast? = some .space then [' '] else [])
    match b with
    | .control k => laidOne cfg say cur.stop.column (ks ++ [k]) r
    | .text s => sep ++ s ++ laidOne cfg say cur.stop.column [] r
    | .value e => sep ++ say e ++ laidOne cfg say cur.stop.column [] r

/-- A piece on a line. -/
def On (l : Nat) (q : Piece E) : Prop := q.1.start.line = l ∧ q.1.stop.line = l

end Genco.Spec.Controls
