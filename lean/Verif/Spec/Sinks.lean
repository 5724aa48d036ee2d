import Verif.Spec.Writers

/-!
# Writing to any sink
-/

set_option autoImplicit false

namespace Genco.Spec

variable {σ α : Type}

/-- Pieces written one after the other; the first failure is the last call. -/
def feed (w : α → σ → Except σ σ) : List α → σ → Except σ σ
  | [], o => .ok o
  | p :: ps, o =>
    match w p o with
    | .ok o => feed w ps o
    | .error o => .error o

/-- The sink behind a formatter, with success or failure. -/
def sink : Except (Fmt σ) (Fmt σ) → Except σ σ
  | .ok f => .ok f.out
  | .error f => .error f.out

/-- Fails after the last piece, if no piece has failed. -/
def thenFail : Except σ σ → Except σ σ
  | .ok o => .error o
  | .error o => .error o

end Genco.Spec
