import Verif.Model.Item

/-!
# Characters that stand for themselves in string literals
-/

set_option autoImplicit false

namespace Genco.Spec.Size

/-- A control character of Unicode (category Cc). -/
def Control (c : Char) : Prop := c.toNat < 0x20 ∨ 0x7f ≤ c.toNat ∧ c.toNat < 0xa0

/-- Printable ASCII. -/
def Printable (c : Char) : Prop := 0x20 ≤ c.toNat ∧ c.toNat < 0x7f

instance (c : Char) : Decidable (Control c) := inferInstanceAs (Decidable (_ ∨ _))
instance (c : Char) : Decidable (Printable c) := inferInstanceAs (Decidable (_ ∧ _))

/-- Stands for itself in literals of Python, C, C#, Go, Nix and Java. -/
def PlainAscii (c : Char) : Prop := Printable c ∧ c ≠ '"' ∧ c ≠ '\'' ∧ c ≠ '\\'
/-- Stands for itself in literals of Rust and JavaScript. -/
def PlainRust (c : Char) : Prop := ¬ Control c ∧ c ≠ '"' ∧ c ≠ '\\'
/-- Stands for itself in literals of Swift. -/
def PlainSwift (c : Char) : Prop := ¬ Control c ∧ c ≠ '"' ∧ c ≠ '\'' ∧ c ≠ '\\'
/-- Stands for itself in literals of Dart. -/
def PlainDart (c : Char) : Prop := ¬ Control c ∧ c ≠ '"' ∧ c ≠ '\\' ∧ c ≠ '$'

instance (c : Char) : Decidable (PlainAscii c) := inferInstanceAs (Decidable (_ ∧ _))
instance (c : Char) : Decidable (PlainRust c) := inferInstanceAs (Decidable (_ ∧ _))
instance (c : Char) : Decidable (PlainSwift c) := inferInstanceAs (Decidable (_ ∧ _))
instance (c : Char) : Decidable (PlainDart c) := inferInstanceAs (Decidable (_ ∧ _))

end Genco.Spec.Size
