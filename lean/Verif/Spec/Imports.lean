import Verif.Model.Btree

/-!
# Notions shared by the specifications of imports
-/

set_option autoImplicit false

namespace Genco.Spec

/-- The list is sorted: no element comes after a greater or equal one. -/
def Sorted {α : Type} [Ord α] (l : List α) : Prop := l.Pairwise (fun a b => compare a b = .lt)

/-- Texts that are equal are also stored the same way, boxed or static. `strs`
gives the texts of an import. -/
def Uniform {ι : Type} (strs : ι → List ItemStr) (l : List ι) : Prop :=
  ∀ i ∈ l, ∀ j ∈ l, ∀ x ∈ strs i, ∀ y ∈ strs j, x.text = y.text → x = y

end Genco.Spec
