import Verif.Proofs.Utf8

/-!
# Texts are sorted by their bytes
-/

set_option autoImplicit false

namespace Genco.Props

open Spec

/-- C95. The order of bytes, by which Rust compares texts, is the order of characters, by which the
model compares them. -/
theorem C95_order (a b : Str) : compare (strBytes a) (strBytes b) = compare a b := cmpStr_eq a b

/-- C95. Two texts have the same bytes only if they are the same. -/
theorem C95_injective (a b : Str) (h : strBytes a = strBytes b) : a = b := by
  have := C95_order a b
  rw [h, Std.ReflCmp.compare_self (cmp := compare)] at this
  exact Std.LawfulEqCmp.eq_of_compare this.symm

/-- C95. Sets of texts are iterated in the order of their bytes. -/
theorem C95_set (l : List ItemStr) : @setOf _ ordItemStr l = setOf l := by rw [ordItemStr_eq]

/-- C95. Maps keyed by texts are the same with the order of bytes. -/
theorem C95_map {ν : Type} (k : ItemStr) (d : ν) (f : ν → ν) (l : List (ItemStr × ν)) :
    @mapModify _ _ ordItemStr k d f l = mapModify k d f l ∧ @mapGet _ _ ordItemStr k l = mapGet k l := by
  rw [ordItemStr_eq]; exact ⟨rfl, rfl⟩

-- One to four bytes; in UTF-16 the last two would be the other way round.
example : compare (strBytes ['z']) (strBytes ['é']) = .lt ∧ compare (strBytes ['é', 'z']) (strBytes ['€']) = .lt ∧
    compare (strBytes ['�']) (strBytes [Char.ofNat 0x1F600]) = .lt := by decide +kernel

example : strBytes ['€', 'a'] = [0xE2, 0x82, 0xAC, 0x61] := by decide +kernel

end Genco.Props
