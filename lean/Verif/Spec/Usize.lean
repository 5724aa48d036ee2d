import Verif.Spec.Layout
import Verif.Spec.Tokens

/-!
# How far in a line starts

The number of spaces before the first text of a line, for indentation with spaces.
-/

set_option autoImplicit false

namespace Genco.Spec

variable {ι : Type}

/-- The spaces before a text that starts a line: indentation, and the spaces asked for. -/
def Piece.indented (cfg : Config) (p : Piece) : Option Nat :=
  match p.margin, cfg.indentation with
  | some l, .space n => some (l * n + p.seps)
  | _, _ => none

/-- The characters of a placed text if only the numbers up to `M` can be counted and
counting starts again behind `M`. -/
def Piece.wrapped (M : Nat) (cfg : Config) (p : Piece) : Str :=
  match p.indented cfg with
  | some w => (List.replicate p.breaks cfg.newline).flatten ++ List.replicate (w % (M + 1)) ' ' ++ p.text
  | none => p.render cfg

/-- All indentation asked for, in or out. -/
def indTotal (items : List (Item ι)) : Nat := (items.map (fun i => (indOf i).natAbs)).sum

/-- Spaces of one level. -/
def perLevel (cfg : Config) : Nat :=
  match cfg.indentation with
  | .space n => n
  | .tab => 0

end Genco.Spec
