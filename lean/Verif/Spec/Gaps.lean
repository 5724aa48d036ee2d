import Verif.Spec.Layout
import Verif.Model.Tokens

/-!
# What whitespace calls between two texts should mean

Stated on the list of calls only.
-/

set_option autoImplicit false

namespace Genco.Spec

variable {ι : Type}

/-- A whitespace call. -/
inductive WsCall where
  | space
  | push
  | line
  | indent
  | unindent
  deriving DecidableEq, Repr

/-- The call itself. -/
def WsCall.call : WsCall → Call ι
  | .space => .space
  | .push => .push
  | .line => .line
  | .indent => .indent
  | .unindent => .unindent

/-- Calls changing the indentation. -/
def WsCall.isInd : WsCall → Bool
  | .indent | .unindent => true
  | _ => false

/-- Indents minus unindents. -/
def net (w : List WsCall) : Int := (w.count .indent : Int) - w.count .unindent

/-- The calls after the last indent or unindent. -/
def sinceInd (w : List WsCall) : List WsCall :=
  (w.reverse.takeWhile (fun c => !c.isInd)).reverse

/-- Line breaks asked for by the calls between two texts. -/
def gapBreaks (w : List WsCall) : Nat :=
  if .line ∈ sinceInd w then 2
  else if .push ∈ sinceInd w ∨ net w ≠ 0 then 1
  else 0

/-- Separator spaces asked for by the calls between two texts. -/
def gapSpaces (w : List WsCall) : Nat := if w.getLast? = some .space then 1 else 0

/-- The text between two texts, where `level` is the sum of indentations asked
for before. -/
def gapText (cfg : Config) (level : Int) (w : List WsCall) : Str :=
  (List.replicate (gapBreaks w) cfg.newline).flatten ++
  (if gapBreaks w > 0 then marginText cfg (level + net w).toNat else []) ++
  List.replicate (gapSpaces w) ' '

/-- What is left of the whitespace calls leading a stream built on its own: indents and unindents that
cancel out are gone, and every call before them. -/
def lead (w : List WsCall) : List WsCall := if net w = 0 then sinceInd w else w

end Genco.Spec
