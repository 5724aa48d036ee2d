import Verif.Model.Macro
import Verif.Model.Formatter
import Verif.Spec.Tokens

/-!
# What the three macros should have in common
-/

set_option autoImplicit false

namespace Genco.Spec

open Macro

variable {ι E Env : Type}

/-- The first thing the calls put on a stream is not whitespace. -/
def Firmly (cs : List (Call ι)) : Prop := ∃ i, (cs.flatMap callItems).head? = some i ∧ isWs i = false

/-- The node puts something other than whitespace on a stream first. -/
def Opens (H : Host ι E Env) (ρ : Env) : Node E → Prop
  | .tree _ s => s ≠ []
  | .literal _ s => s ≠ []
  | .escape _ => True
  | .quoted _ _ => True
  | .str _ _ _ => True
  | .group _ _ _ => True
  | .eval _ x => Firmly (H.value ρ x)
  | .scope _ bound x => bound = true ∧ Firmly (H.scope ρ x)
  | _ => False

/-- An item only interpolated strings need. -/
def evalItem : Item ι → Bool
  | .openEval => true
  | .closeEval => true
  | .openQuote e => e
  | _ => false

/-- A call that puts such an item on a stream. -/
def EvalCall (c : Call ι) : Prop := ∃ i ∈ callItems c, evalItem i = true

/-- The languages do the same except for interpolation in strings. -/
structure SameButEval (L L' : Lang ι) : Prop where
  openQuote : L.openQuote false = L'.openQuote false
  closeQuote : L.closeQuote false = L'.closeQuote false
  writeQuoted : L.writeQuoted = L'.writeQuoted
  langItem : L.langItem = L'.langItem

end Genco.Spec
