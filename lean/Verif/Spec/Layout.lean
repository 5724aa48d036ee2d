import Verif.Model.Formatter

/-!
# What a stream of texts and whitespace requests should look like

A declarative account of the layout: each visible text is placed according to
the requests made since the previous visible text and the net indentation so
far. Nothing here refers to the formatter's state machine.
-/

set_option autoImplicit false

namespace Genco.Spec

variable {ι : Type}

/-- A text or a whitespace request. -/
inductive Act where
  | text (s : Str)
  | push
  | line
  | space
  | indent (n : Int)
  deriving DecidableEq, Repr

/-- A non-empty text. -/
def visible : Act → Bool
  | .text s => s ≠ []
  | _ => false

def isLine : Act → Bool
  | .line => true
  | _ => false

/-- Requests for a new line: push, or a change of indentation. -/
def isPush : Act → Bool
  | .push | .indent _ => true
  | _ => false

def isSpace : Act → Bool
  | .space => true
  | _ => false

/-- The part of `p` after the last element satisfying `q`. -/
def afterLast (q : Act → Bool) (p : List Act) : List Act :=
  (p.reverse.takeWhile (fun a => !q a)).reverse

/-- The requests since the last visible text. -/
def gap (p : List Act) : List Act := afterLast visible p

/-- No visible text yet. -/
def isFirst (p : List Act) : Bool := !p.any visible

/-- Indentation amount of a request. -/
def actInd : Act → Int
  | .indent n => n
  | _ => 0

/-- The indentation level: indentation requested so far, not below zero. -/
def level (p : List Act) : Nat := (p.map actInd).sum.toNat

/-- Number of line breaks before the next visible text. -/
def breaks (p : List Act) : Nat :=
  if isFirst p then 0
  else if (gap p).any isLine then 2
  else if (gap p).any isPush then 1
  else 0

/-- Number of separator spaces before the next visible text: those requested
since the last request for a line (or, without one, for a new line). Before the
first text nothing is discarded. -/
def seps (p : List Act) : Nat :=
  if isFirst p then (gap p).countP isSpace
  else if (gap p).any isLine then (afterLast isLine (gap p)).countP isSpace
  else (afterLast isPush (gap p)).countP isSpace

/-- A placed text. `margin` is the indentation level if the text starts a line. -/
structure Piece where
  breaks : Nat
  margin : Option Nat
  seps : Nat
  text : Str
  deriving DecidableEq, Repr

/-- How the visible text `s` after the requests and texts `p` is placed. -/
def place (p : List Act) (s : Str) : Piece where
  breaks := breaks p
  margin := if isFirst p || breaks p > 0 then some (level p) else none
  seps := seps p
  text := s

/-- All visible texts with their placement; `p` is what came before. -/
def piecesFrom : List Act → List Act → List Piece
  | _, [] => []
  | p, .text s :: r =>
    (if s ≠ [] then [place p s] else []) ++ piecesFrom (p ++ [.text s]) r
  | p, a :: r => piecesFrom (p ++ [a]) r

/-- All visible texts with their placement. -/
def pieces (acts : List Act) : List Piece := piecesFrom [] acts

/-- The characters of one indentation level. -/
def marginText (cfg : Config) (level : Nat) : Str :=
  match cfg.indentation with
  | .space n => List.replicate (level * n) ' '
  | .tab => List.replicate level '\t'

/-- The indentation of a line; none for the middle of a line. -/
def lineStart (cfg : Config) : Option Nat → Str
  | some l => marginText cfg l
  | none => []

/-- The characters of a placed text. -/
def Piece.render (cfg : Config) (p : Piece) : Str :=
  (List.replicate p.breaks cfg.newline).flatten ++
  lineStart cfg p.margin ++
  List.replicate p.seps ' ' ++ p.text

/-- The rendered text. -/
def render (cfg : Config) (acts : List Act) : Str := (pieces acts).flatMap (Piece.render cfg)

/-- Items without quoting: literals, language items, registrations and
whitespace. -/
def isPlain : Item ι → Bool
  | .openQuote _ | .closeQuote | .openEval | .closeEval => false
  | _ => true

/-- What a plain item asks for. `itemText` gives the texts of language items. -/
def plainActs (itemText : ι → List Str) : Item ι → List Act
  | .literal s => [.text s.text]
  | .lang _ i => (itemText i).map .text
  | .push => [.push]
  | .line => [.line]
  | .space => [.space]
  | .indentation n => if n = 0 then [] else [.indent n]
  | _ => []

/-- Neither space, tab nor line break. -/
def inked (c : Char) : Bool := c ≠ ' ' && c ≠ '\t' && c ≠ '\n' && c ≠ '\r'

end Genco.Spec
