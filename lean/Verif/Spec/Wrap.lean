import Verif.Spec.Tokens

/-!
# What counters that wrap around make of a stream
-/

set_option autoImplicit false

namespace Genco.Spec

variable {ι : Type}

/-- The number in the range of `i16` that is the same but for multiples of 65536. -/
def wrap (n : Int) : Int := (n + 32768) % 65536 - 32768

/-- An item as a stream with counters that wrap around has it, if it has it. -/
def narrow : Item ι → Option (Item ι)
  | .indentation n => if wrap n = 0 then none else some (.indentation (wrap n))
  | i => some (erase i)

end Genco.Spec
