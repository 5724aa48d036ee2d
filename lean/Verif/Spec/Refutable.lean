import Verif.Spec.Macro

/-!
# Elements a pattern takes
-/

set_option autoImplicit false

namespace Genco.Spec

variable {Env : Type}

/-- The elements in front of the first one the pattern does not take. -/
def taken : List (Option Env) → List Env
  | some x :: l => x :: taken l
  | _ => []

end Genco.Spec
