import Verif.Model.MacroParse

/-!
# The number of tokens
-/

set_option autoImplicit false

namespace Genco.Spec.MacroFile

open Genco.Macro

mutual

/-- The number of tokens, where the two ends of a group are two. -/
def count : List TT → Nat
  | [] => 0
  | t :: ts => countOne t + count ts

def countOne : TT → Nat
  | .group _ _ content => 2 + count content
  | _ => 1

end

/-- The parsers of `syn` take tokens, but do not put any back. -/
structure Takes (S : Syn) : Prop where
  expr : ∀ ts e r, S.expr ts = some (e, r) → count r ≤ count ts
  fullExpr : ∀ ts e r, S.fullExpr ts = some (e, r) → count r ≤ count ts
  pat : ∀ ts e r, S.pat ts = some (e, r) → count r ≤ count ts
  patMulti : ∀ ts e r, S.patMulti ts = some (e, r) → count r ≤ count ts

end Genco.Spec.MacroFile
