import Verif.Model.Formatter

/-!
# Specifications about writers
-/

set_option autoImplicit false

namespace Genco.Spec

variable {σ : Type}

/-- One call made on a writer. -/
inductive WCall where
  | str (s : Str)
  | line
  | trailing
  deriving DecidableEq, Repr

/-- The effect of a call on a given writer. -/
def WCall.on (W : Writer σ) (cfg : Config) : WCall → σ → Except σ σ
  | .str s, o => W.writeStr s o
  | .line, o => W.writeLine cfg o
  | .trailing, o => W.writeTrailingLine cfg o

/-- A writer that never fails and records the calls it receives. -/
def recorder : Writer (List WCall) where
  writeStr s o := .ok (o ++ [.str s])
  writeLine _ o := .ok (o ++ [.line])
  writeTrailingLine _ o := .ok (o ++ [.trailing])

/-- The final state of a computation, failed or not. -/
def final {α : Type} : Except α α → α
  | .ok a => a
  | .error a => a

/-- Whether a computation succeeded. -/
def succeeded {α β : Type} : Except α β → Bool
  | .ok _ => true
  | .error _ => false

/-- Calls performed one after the other, each of which must succeed. -/
inductive Performs (W : Writer σ) (cfg : Config) : List WCall → σ → σ → Prop
  | nil (o) : Performs W cfg [] o o
  | cons {c o o' r o''} : c.on W cfg o = .ok o' → Performs W cfg r o' o'' →
      Performs W cfg (c :: r) o o''

/-- An `io::Write` with room for a limited number of bytes: it stores what fits
and then fails. State: bytes stored. -/
def limited (cap : Nat) (b : List UInt8) (o : List UInt8) : Except (List UInt8) (List UInt8) :=
  if o.length + b.length ≤ cap then .ok (o ++ b) else .error (o ++ b.take (cap - o.length))

/-- An `io::Write` that stores all bytes. -/
def unlimited (b : List UInt8) (o : List UInt8) : Except (List UInt8) (List UInt8) := .ok (o ++ b)

end Genco.Spec
