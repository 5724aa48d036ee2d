import Verif.Model.Fake
import Verif.Spec.Fake

/-!
# Span texts
-/

set_option autoImplicit false

namespace Genco.Macro

open Spec.SpanText

/-! ## Digits -/

theorem digit_bounds (c : Char) : ('0' ≤ c ∧ c ≤ '9') ↔ 48 ≤ c.toNat ∧ c.toNat ≤ 57 := by
  constructor
  · rintro ⟨h1, h2⟩; exact ⟨h1, h2⟩
  · rintro ⟨h1, h2⟩; exact ⟨h1, h2⟩

theorem digitOf_eq (c : Char) (d : Nat) :
    digitOf c = some d ↔ ('0' ≤ c ∧ c ≤ '9') ∧ d = c.toNat - '0'.toNat := by
  constructor
  · intro h
    unfold digitOf at h
    split at h <;> first | (cases h; decide) | cases h
  · rintro ⟨h, rfl⟩
    rw [digit_bounds] at h
    have hc : c = Char.ofNat c.toNat := (Char.ofNat_toNat c).symm
    generalize c.toNat = n at h hc
    subst hc
    obtain ⟨h1, h2⟩ := h
    have : n = 48 ∨ n = 49 ∨ n = 50 ∨ n = 51 ∨ n = 52 ∨ n = 53 ∨ n = 54 ∨ n = 55 ∨ n = 56 ∨ n = 57 := by omega
    rcases this with rfl | rfl | rfl | rfl | rfl | rfl | rfl | rfl | rfl | rfl <;> rfl

/-- Reading on from a number. -/
inductive Reads : Nat → Str → Nat → Prop
  | nil (n : Nat) : Reads n [] n
  | cons {a : Nat} {c : Char} {d : Nat} {s : Str} {n : Nat} (h : digitOf c = some d) (hr : Reads (10 * a + d) s n) :
      Reads a (c :: s) n

theorem Reads.le {a : Nat} {s : Str} {n : Nat} (h : Reads a s n) : a ≤ n := by
  induction h with
  | nil => exact Nat.le_refl _
  | cons _ _ ih => omega

theorem Reads.snoc {a : Nat} {s : Str} {n : Nat} (h : Reads a s n) {c : Char} {d : Nat} (hd : digitOf c = some d) :
    Reads a (s ++ [c]) (10 * n + d) := by
  induction h with
  | nil => exact .cons hd (.nil _)
  | cons h _ ih => exact .cons h ih

theorem digits_reads {s : Str} {n : Nat} (h : Digits s n) : s ≠ [] ∧ Reads 0 s n := by
  induction h with
  | one h => exact ⟨by simp, .cons h (by simpa using Reads.nil _)⟩
  | more _ h ih => exact ⟨by simp, ih.2.snoc h⟩

theorem Digits.reads {s : Str} {a : Nat} (h : Digits s a) {t : Str} {n : Nat} (hr : Reads a t n) :
    Digits (s ++ t) n := by
  induction hr generalizing s with
  | nil => rwa [List.append_nil]
  | cons hd _ ih =>
    have := ih (.more h hd)
    rwa [List.append_assoc] at this

theorem reads_digits {s : Str} {n : Nat} (h0 : s ≠ []) (h : Reads 0 s n) : Digits s n := by
  cases h with
  | nil => exact absurd rfl h0
  | cons hd hr =>
    rw [Nat.mul_zero, Nat.zero_add] at hr
    exact Digits.reads (.one hd) hr

theorem parseDigits_iff (max : Nat) (s : Str) : ∀ a n, a ≤ max →
    (parseDigits max a s = some n ↔ Reads a s n ∧ n ≤ max) := by
  induction s with
  | nil =>
    intro a n ha
    constructor
    · intro h; cases h; exact ⟨.nil _, ha⟩
    · rintro ⟨h, -⟩; cases h; rfl
  | cons c s ih =>
    intro a n ha
    unfold parseDigits
    constructor
    · intro h
      split at h
      · rename_i hc
        split at h
        · split at h
          · rename_i h2
            obtain ⟨h3, h4⟩ := (ih _ n h2).1 h
            exact ⟨.cons ((digitOf_eq c _).2 ⟨hc, rfl⟩) (by rwa [Nat.mul_comm]), h4⟩
          · cases h
        · cases h
      · cases h
    · rintro ⟨h, hn⟩
      cases h with
      | cons hd hr =>
        obtain ⟨hc, rfl⟩ := (digitOf_eq c _).1 hd
        have := hr.le
        rw [if_pos hc, if_pos (by omega), if_pos (by omega)]
        rw [Nat.mul_comm 10] at hr
        exact (ih _ n (by omega)).2 ⟨hr, hn⟩

theorem no_sign {s : Str} {a n : Nat} {c : Char} (h : Reads a (c :: s) n) : c ≠ '+' ∧ c ≠ '-' ∧ c ≠ '.' := by
  cases h with
  | cons hd _ =>
    refine ⟨?_, ?_, ?_⟩ <;> (rintro rfl; cases hd)

theorem parseUsize_iff (max : Nat) (s : Str) (n : Nat) :
    parseUsize max s = some n ↔ Numeral s n ∧ n ≤ max := by
  have hp := parseDigits_iff max
  constructor
  · intro h
    unfold parseUsize at h
    split at h
    · cases h
    · cases h
    · cases h
    · rename_i r hr
      obtain ⟨h1, h2⟩ := (hp r 0 n (Nat.zero_le _)).1 h
      exact ⟨.inr ⟨r, rfl, reads_digits (by simpa using hr) h1⟩, h2⟩
    · rename_i h0 _ _ _
      obtain ⟨h1, h2⟩ := (hp s 0 n (Nat.zero_le _)).1 h
      exact ⟨.inl (reads_digits (by simpa using h0) h1), h2⟩
  · rintro ⟨h | ⟨r, rfl, h⟩, hn⟩
    · obtain ⟨h0, h1⟩ := digits_reads h
      unfold parseUsize
      split
      · exact absurd rfl h0
      · exact absurd rfl (no_sign h1).1
      · exact absurd rfl (no_sign h1).2.1
      · exact absurd rfl (no_sign h1).1
      · exact (hp _ 0 n (Nat.zero_le _)).2 ⟨h1, hn⟩
    · obtain ⟨h0, h1⟩ := digits_reads h
      unfold parseUsize
      split
      · rename_i e; cases e
      · rename_i e; cases e; exact absurd rfl h0
      · rename_i e; cases e
      · rename_i e; cases e
        exact (hp _ 0 n (Nat.zero_le _)).2 ⟨h1, hn⟩
      · rename_i e; exact absurd rfl (e r)

/-! ## Two dots -/

theorem reads_dot {s : Str} {a n : Nat} (h : Reads a s n) : '.' ∉ s := by
  induction h with
  | nil => simp
  | cons hd _ ih =>
    intro hm
    rcases List.mem_cons.1 hm with rfl | hm
    · cases hd
    · exact ih hm

theorem numeral_dot {s : Str} {n : Nat} (h : Numeral s n) : '.' ∉ s := by
  rcases h with h | ⟨r, rfl, h⟩
  · exact reads_dot (digits_reads h).2
  · intro hm
    rcases List.mem_cons.1 hm with e | hm
    · cases e
    · exact reads_dot (digits_reads h).2 hm

theorem splitDots_eq (a b : Str) (h : '.' ∉ a) : splitDots (a ++ '.' :: '.' :: b) = some (a, b) := by
  induction a with
  | nil => rfl
  | cons c a ih =>
    have hc : c ≠ '.' := fun e => h (by simp [e])
    have := ih (fun hm => h (List.mem_cons_of_mem _ hm))
    show splitDots (c :: (a ++ '.' :: '.' :: b)) = _
    unfold splitDots
    split
    · rename_i e; exact absurd (List.cons.inj e).1 hc
    · rename_i e; obtain ⟨rfl, rfl⟩ := List.cons.inj e; rw [this]; rfl
    · rename_i e; cases e

theorem splitDots_some {s a b : Str} (h : splitDots s = some (a, b)) : s = a ++ '.' :: '.' :: b := by
  induction s generalizing a with
  | nil => cases h
  | cons c s ih =>
    unfold splitDots at h
    split at h
    · rename_i e; cases e; cases h; rfl
    · rename_i e; cases e
      obtain ⟨⟨x, y⟩, hx, he⟩ := Option.map_eq_some_iff.1 h
      cases he
      rw [ih hx]; rfl
    · cases h

/-! ## Parentheses -/

theorem withinParens_iff (text r : Str) :
    withinParens text = some r ↔ ∃ p c, '(' ∉ p ∧ c.utf8Size = 1 ∧ text = p ++ '(' :: r ++ [c] := by
  constructor
  · intro h
    unfold withinParens at h
    split at h
    · cases h
    · rename_i c0 rest e
      split at h
      · cases h
      · rename_i c hc
        split at h
        · rename_i hu
          cases h
          obtain ⟨q, hq⟩ := List.getLast?_eq_some_iff.1 hc
          have h1 := List.takeWhile_append_dropWhile (p := (· ≠ '(')) (l := text)
          have h2 : c0 = '(' := by
            have := List.head?_dropWhile_not (· ≠ '(') text
            rw [e] at this
            simpa using this
          rw [e, h2, hq] at h1
          refine ⟨text.takeWhile (· ≠ '('), c, ?_, hu, ?_⟩
          · intro hm
            have := List.all_takeWhile (p := (· ≠ '(')) (l := text)
            simpa using List.all_eq_true.1 this _ hm
          · rw [hq, List.dropLast_concat]
            rw [List.append_assoc]
            exact h1.symm
        · cases h
  · rintro ⟨p, c, hp, hc, rfl⟩
    unfold withinParens
    have : (p ++ '(' :: r ++ [c]).dropWhile (· ≠ '(') = '(' :: r ++ [c] := by
      rw [List.append_assoc, List.dropWhile_append_of_pos]
      · rfl
      · intro x hx
        have : x ≠ '(' := fun e => hp (e ▸ hx)
        simpa using this
    rw [this]
    dsimp only [List.cons_append]
    rw [List.getLast?_concat, List.dropLast_concat]
    exact if_pos hc

/-! ## Printed numbers -/

theorem decimal_digits (n : Nat) : Digits (decimal n) n := by
  induction n using Nat.strongRecOn with
  | ind n ih =>
    have hd : ∀ m < 10, digitOf (match m with
      | 0 => '0' | 1 => '1' | 2 => '2' | 3 => '3' | 4 => '4'
      | 5 => '5' | 6 => '6' | 7 => '7' | 8 => '8' | _ => '9') = some m := by decide
    unfold decimal
    split
    · rename_i h
      rw [List.nil_append, Nat.mod_eq_of_lt h]
      exact .one (hd n h)
    · have := Digits.more (ih (n / 10) (by omega)) (hd (n % 10) (Nat.mod_lt _ (by decide)))
      rwa [Nat.div_add_mod] at this

theorem findLineColumn_iff (max : Nat) (text : Str) (a b : Nat) : findLineColumn max text = some (a, b) ↔
    ∃ p x y c, '(' ∉ p ∧ c.utf8Size = 1 ∧ text = p ++ '(' :: x ++ "..".toList ++ y ++ [c] ∧
      Numeral x a ∧ Numeral y b ∧ a ≤ max ∧ b ≤ max := by
  have hd : "..".toList = ['.', '.'] := by decide
  rw [hd]
  unfold findLineColumn
  simp only [Option.bind_eq_bind, Option.bind_eq_some_iff]
  constructor
  · rintro ⟨r, hr, ⟨x, y⟩, hs, a', ha, b', hb, he⟩
    cases he
    obtain ⟨p, c, hp, hc, ht⟩ := (withinParens_iff text r).1 hr
    rw [splitDots_some hs] at ht
    obtain ⟨ha, ha'⟩ := (parseUsize_iff max x _).1 ha
    obtain ⟨hb, hb'⟩ := (parseUsize_iff max y _).1 hb
    exact ⟨p, x, y, c, hp, hc, by rw [ht]; simp, ha, hb, ha', hb'⟩
  · rintro ⟨p, x, y, c, hp, hc, ht, ha, hb, ha', hb'⟩
    refine ⟨x ++ '.' :: '.' :: y, (withinParens_iff _ _).2 ⟨p, c, hp, hc, by rw [ht]; simp⟩, (x, y),
      splitDots_eq x y (numeral_dot ha), a, (parseUsize_iff _ _ _).2 ⟨ha, ha'⟩, b,
      (parseUsize_iff _ _ _).2 ⟨hb, hb'⟩, rfl⟩

end Genco.Macro
