import Verif.Model.Sources
import Verif.Model.ImportsB
import Verif.Model.Nix

/-!
# Values of the code in macro invocations
-/

set_option autoImplicit false

namespace Genco.Spec.Sources

open Genco Macro

variable {ι Env : Type}

/-- The expression has the value. -/
def Holds (K : Host ι Code Env) (ρ : Env) (e : Str) (v : Value ι) : Prop :=
  ∀ t, (K.value ρ (code e)).foldl Call.run t = v.formatInto t

/-- The statements add these items to the receiver. -/
def Adds (K : Host ι Code Env) (ρ : Env) (e : Code) (l : List Bit) : Prop :=
  ∀ t, (K.scope ρ e).foldl Call.run t = t.extend (bitItems l)

/-- The invocation adds these items to the receiver, whatever is in it and on every compiler. -/
def Writes (K : Host ι Code Env) (ρ : Env) (i : Invocation) (l : List Bit) : Prop :=
  ∀ C t, i.runIn C K ρ t = some (t.extend (bitItems l))

end Genco.Spec.Sources
