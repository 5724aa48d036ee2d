import Verif.Model.Config
import Mathlib.Data.List.SplitOn

/-!
# Changing the indentation of a finished text
-/

set_option autoImplicit false

namespace Genco.Spec

/-- The character an indentation is made of. -/
def tabChar : Indentation → Char
  | .space _ => ' '
  | .tab => '\t'

/-- How many of them make one level. -/
def tabWidth : Indentation → Nat
  | .space n => n
  | .tab => 1

/-- `k` levels. -/
def tabs (i : Indentation) (k : Nat) : Str := List.replicate (k * tabWidth i) (tabChar i)

/-- A line indented with `i`, indented with `j` instead: its leading characters are counted, each full
level is replaced, and the remainder stays. -/
def retab (i j : Indentation) (line : Str) : Str :=
  tabs j ((line.takeWhile (· == tabChar i)).length / tabWidth i) ++
    line.drop ((line.takeWhile (· == tabChar i)).length / tabWidth i * tabWidth i)

/-- A text with lines ended by LF and indented with `i`, converted to the configuration `cfg`. -/
def convert (i : Indentation) (cfg : Config) (s : Str) : Str :=
  cfg.newline.intercalate ((s.splitOn '\n').map (retab i cfg.indentation))

end Genco.Spec
