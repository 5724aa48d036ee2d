import Verif.Spec.Utf8
import Verif.Proofs.Btree

/-!
# The order of bytes is the order of characters
-/

set_option autoImplicit false

namespace Genco

open Spec Std

theorem cmp8_lt {a b : Nat} (hb : b < 256) (h : a < b) (u v : List UInt8) :
    compare (UInt8.ofNat a :: u) (UInt8.ofNat b :: v) = .lt := by
  have : compare (UInt8.ofNat a) (UInt8.ofNat b) = .lt := by
    show compareOfLessAndEq _ _ = _
    have hl : UInt8.ofNat a < UInt8.ofNat b := by
      rw [UInt8.lt_iff_toNat_lt, UInt8.toNat_ofNat', UInt8.toNat_ofNat']
      omega
    rw [compareOfLessAndEq, if_pos hl]
  rw [List.compare_cons_cons, this]; rfl

theorem cmp8_eq {a b : Nat} (h : a = b) (u v : List UInt8) :
    compare (UInt8.ofNat a :: u) (UInt8.ofNat b :: v) = compare u v := by
  subst h
  rw [List.compare_cons_cons, ReflCmp.compare_self (cmp := compare)]; rfl

theorem encode_lt (c d : Char) (h : c.val.toNat < d.val.toNat) (u v : List UInt8) :
    compare (String.utf8EncodeChar c ++ u) (String.utf8EncodeChar d ++ v) = .lt := by
  have hd : d.val.toNat < 1114112 := by
    have := d.valid
    unfold UInt32.isValidChar Nat.isValidChar at this
    omega
  unfold String.utf8EncodeChar
  generalize c.val.toNat = n at h ⊢
  generalize d.val.toNat = m at h hd ⊢
  dsimp only
  split
  · split
    · exact cmp8_lt (by omega) h _ _
    · split
      · exact cmp8_lt (by omega) (by omega) _ _
      · split
        · exact cmp8_lt (by omega) (by omega) _ _
        · exact cmp8_lt (by omega) (by omega) _ _
  · rw [if_neg (by omega : ¬ m ≤ 0x7f)]
    split
    · split
      · rcases (by omega : n / 64 % 32 < m / 64 % 32 ∨ n / 64 % 32 = m / 64 % 32 ∧ n % 64 < m % 64) with h | ⟨h, h'⟩
        · exact cmp8_lt (by omega) (by omega) _ _
        · exact (cmp8_eq (by omega) _ _).trans (cmp8_lt (by omega) (by omega) _ _)
      · split
        · exact cmp8_lt (by omega) (by omega) _ _
        · exact cmp8_lt (by omega) (by omega) _ _
    · rw [if_neg (by omega : ¬ m ≤ 0x7ff)]
      split
      · split
        · rcases (by omega : n / 4096 % 16 < m / 4096 % 16 ∨ n / 4096 % 16 = m / 4096 % 16 ∧
            (n / 64 % 64 < m / 64 % 64 ∨ n / 64 % 64 = m / 64 % 64 ∧ n % 64 < m % 64)) with h | ⟨h, h' | ⟨h', h''⟩⟩
          · exact cmp8_lt (by omega) (by omega) _ _
          · exact (cmp8_eq (by omega) _ _).trans (cmp8_lt (by omega) (by omega) _ _)
          · exact ((cmp8_eq (by omega) _ _).trans (cmp8_eq (by omega) _ _)).trans (cmp8_lt (by omega) (by omega) _ _)
        · exact cmp8_lt (by omega) (by omega) _ _
      · rw [if_neg (by omega : ¬ m ≤ 0xffff)]
        have n1 : n / 64 / 64 = n / 4096 := Nat.div_div_eq_div_mul n 64 64
        have n2 : n / 4096 / 64 = n / 262144 := Nat.div_div_eq_div_mul n 4096 64
        have m1 : m / 64 / 64 = m / 4096 := Nat.div_div_eq_div_mul m 64 64
        have m2 : m / 4096 / 64 = m / 262144 := Nat.div_div_eq_div_mul m 4096 64
        have n3 : n / 262144 % 8 = n / 262144 := Nat.mod_eq_of_lt (by omega)
        have m3 : m / 262144 % 8 = m / 262144 := Nat.mod_eq_of_lt (by omega)
        have key : n / 262144 % 8 < m / 262144 % 8 ∨ n / 262144 % 8 = m / 262144 % 8 ∧
            (n / 4096 % 64 < m / 4096 % 64 ∨ n / 4096 % 64 = m / 4096 % 64 ∧
            (n / 64 % 64 < m / 64 % 64 ∨ n / 64 % 64 = m / 64 % 64 ∧ n % 64 < m % 64)) := by
          rw [n3, m3]
          rcases Nat.lt_or_eq_of_le (Nat.div_le_div_right (c := 262144) (Nat.le_of_lt h)) with h1 | h1
          · exact .inl h1
          · refine .inr ⟨h1, ?_⟩
            rcases Nat.lt_or_eq_of_le (Nat.div_le_div_right (c := 4096) (Nat.le_of_lt h)) with h2 | h2
            · exact .inl (by omega)
            · refine .inr ⟨by omega, ?_⟩
              rcases Nat.lt_or_eq_of_le (Nat.div_le_div_right (c := 64) (Nat.le_of_lt h)) with h3 | h3
              · exact .inl (by omega)
              · exact .inr ⟨by omega, by omega⟩
        rcases key with h | ⟨h, h' | ⟨h', h'' | ⟨h'', h'''⟩⟩⟩
        · exact cmp8_lt (by omega) (by omega) _ _
        · exact (cmp8_eq (by omega) _ _).trans (cmp8_lt (by omega) (by omega) _ _)
        · exact ((cmp8_eq (by omega) _ _).trans (cmp8_eq (by omega) _ _)).trans (cmp8_lt (by omega) (by omega) _ _)
        · exact (((cmp8_eq (by omega) _ _).trans (cmp8_eq (by omega) _ _)).trans (cmp8_eq (by omega) _ _)).trans
            (cmp8_lt (by omega) (by omega) _ _)

theorem cmp_prefix (p u v : List UInt8) : compare (p ++ u) (p ++ v) = compare u v := by
  induction p with
  | nil => rfl
  | cons x p ih =>
    rw [List.cons_append, List.cons_append, List.compare_cons_cons, ReflCmp.compare_self (cmp := compare), ih]; rfl

theorem encode_ne_nil (c : Char) : ∃ x l, String.utf8EncodeChar c = x :: l := by
  unfold String.utf8EncodeChar
  dsimp only
  split
  · exact ⟨_, _, rfl⟩
  · split
    · exact ⟨_, _, rfl⟩
    · split <;> exact ⟨_, _, rfl⟩

theorem char_compare (c d : Char) : compare c d = compare c.val.toNat d.val.toNat := by
  show compareOfLessAndEq c d = compareOfLessAndEq _ _
  unfold compareOfLessAndEq
  have h1 : (c < d) = (c.val.toNat < d.val.toNat) := rfl
  have h2 : (c = d) = (c.val.toNat = d.val.toNat) := by
    apply propext
    constructor
    · rintro rfl; rfl
    · intro h
      exact Char.ext (UInt32.toNat_inj.1 h)
  simp only [h1, h2]

theorem cmpStr_eq (a b : Str) : cmpStr a b = compare a b := by
  induction a generalizing b with
  | nil =>
    cases b with
    | nil => rfl
    | cons d b =>
      obtain ⟨x, l, h⟩ := encode_ne_nil d
      simp only [cmpStr, strBytes, List.flatMap_nil, List.flatMap_cons, h]
      rfl
  | cons c a ih =>
    cases b with
    | nil =>
      obtain ⟨x, l, h⟩ := encode_ne_nil c
      simp only [cmpStr, strBytes, List.flatMap_nil, List.flatMap_cons, h]
      rfl
    | cons d b =>
      have e : cmpStr (c :: a) (d :: b) =
        compare (String.utf8EncodeChar c ++ strBytes a) (String.utf8EncodeChar d ++ strBytes b) := rfl
      rw [e, List.compare_cons_cons, char_compare]
      rcases Nat.lt_trichotomy c.val.toNat d.val.toNat with h | h | h
      · rw [encode_lt c d h, Nat.compare_eq_lt.2 h]; rfl
      · have : c = d := Char.ext (UInt32.toNat_inj.1 h)
        subst this
        rw [cmp_prefix, ReflCmp.compare_self (cmp := compare)]
        exact ih b
      · rw [OrientedCmp.eq_swap (cmp := compare), encode_lt d c h, Nat.compare_eq_gt.2 h]; rfl

theorem ordItemStr_eq : ordItemStr = (inferInstance : Ord ItemStr) := by
  have : ∀ a b : ItemStr, ordItemStr.compare a b = compare a b := by
    intro a b
    cases a <;> cases b
    · exact cmpStr_eq _ _
    · rfl
    · rfl
    · exact cmpStr_eq _ _
  show Ord.mk ordItemStr.compare = Ord.mk compare
  congr 1
  funext a b
  exact this a b

end Genco
