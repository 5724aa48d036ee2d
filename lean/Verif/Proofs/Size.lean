import Verif.Spec.Size
import Verif.Proofs.Escape
import Mathlib.Tactic.SplitIfs

/-!
# Lengths of string literals
-/

set_option autoImplicit false

namespace Genco

open Spec Spec.Size

theorem hexFixed_len (k n : Nat) : (hexFixed k n).length = k := by
  induction k generalizing n with
  | zero => rfl
  | succ k ih => rw [hexFixed, List.length_append, ih]; rfl

theorem hexMin_len (k n : Nat) : (hexMin k n).length = max k (hexLen n) := hexFixed_len _ _

theorem hexLen_two {n : Nat} (h : n < 0x100) : hexLen n ≤ 2 := by
  unfold hexLen; split_ifs <;> omega

theorem hexLen_four {n : Nat} (h : n < 0x10000) : hexLen n ≤ 4 := by
  unfold hexLen; split_ifs <;> omega

theorem hexLen_eight (n : Nat) : hexLen n ≤ 8 := by
  unfold hexLen; split_ifs <;> omega

/-- How one character is written: as itself if it is plain, and else with at least two and at most `k`
characters, which are needed for `w`. -/
structure Written (esc : Char → Str) (plain : Char → Prop) (k : Nat) (w : Char) : Prop where
  self : ∀ c, plain c → esc c = [c]
  other : ∀ c, ¬ plain c → 2 ≤ (esc c).length
  most : ∀ c, (esc c).length ≤ k
  worst : (esc w).length = k

variable {esc : Char → Str} {plain : Char → Prop} {k : Nat} {w : Char}

theorem Written.pos (h : Written esc plain k w) (c : Char) : 1 ≤ (esc c).length := by
  by_cases hc : plain c
  · rw [h.self c hc]; simp
  · exact Nat.le_of_succ_le (h.other c hc)

theorem Written.bounds (h : Written esc plain k w) (s : Str) :
    s.length ≤ (s.flatMap esc).length ∧ (s.flatMap esc).length ≤ k * s.length := by
  induction s with
  | nil => simp
  | cons c s ih =>
    have h1 := h.pos c
    have h2 := h.most c
    rw [List.flatMap_cons, List.length_append, List.length_cons, Nat.mul_succ]
    omega

theorem Written.tight (h : Written esc plain k w) (n : Nat) :
    ((List.replicate n w).flatMap esc).length = k * n := by
  induction n with
  | zero => rfl
  | succ n ih => rw [List.replicate_succ, List.flatMap_cons, List.length_append, ih, h.worst, Nat.mul_succ]; omega

theorem Written.same (h : Written esc plain k w) (s : Str) :
    s.flatMap esc = s ↔ ∀ c ∈ s, plain c := by
  induction s with
  | nil => simp
  | cons c s ih =>
    rw [List.flatMap_cons]
    constructor
    · intro he
      by_cases hc : plain c
      · rw [h.self c hc] at he
        have := ih.1 (List.cons.inj he).2
        intro x hx
        rcases List.mem_cons.1 hx with rfl | hx
        · exact hc
        · exact this x hx
      · have h1 := h.other c hc
        have h2 := (h.bounds s).1
        have h3 := congrArg List.length he
        rw [List.length_append, List.length_cons] at h3
        omega
    · intro hp
      rw [h.self c (hp c (by simp)), ih.2 (fun x hx => hp x (by simp [hx]))]
      rfl

/-- One of both. -/
def One (plain : Char → Prop) (k : Nat) (c : Char) (s : Str) : Prop :=
  (plain c ∧ s = [c]) ∨ (¬ plain c ∧ 2 ≤ s.length ∧ s.length ≤ k)

theorem One.ite {p : Prop} [Decidable p] {c : Char} {a b : Str} (h1 : p → One plain k c a)
    (h2 : ¬ p → One plain k c b) : One plain k c (if p then a else b) := by
  split
  · exact h1 ‹_›
  · exact h2 ‹_›

theorem Written.of (h : ∀ c, One plain k c (esc c)) (hw : (esc w).length = k) (hk : 1 ≤ k) :
    Written esc plain k w where
  self c hc := by
    rcases h c with h | h
    · exact h.2
    · exact absurd hc h.1
  other c hc := by
    rcases h c with h | h
    · exact absurd h.1 hc
    · exact h.2.1
  most c := by
    rcases h c with h | h
    · rw [h.2]; exact hk
    · exact h.2.2
  worst := hw

/-- A character with an escape of its own. -/
macro "letter" : tactic =>
  `(tactic| (refine One.ite (fun h => ?_) (fun _ => ?_); · subst h; exact .inr (by decide)))

theorem escUtf16_len (c : Char) : 6 ≤ (escUtf16 c).length ∧ (escUtf16 c).length ≤ 12 ∧
    (c.toNat < 0x10000 → (escUtf16 c).length = 6) := by
  have hc : c.toNat < 0x110000 := toNat_lt c
  unfold escUtf16 utf16Char
  generalize c.toNat = n at hc
  split
  · rename_i h
    have := hexLen_four h
    simp only [List.flatMap_cons, List.flatMap_nil, List.append_nil, List.length_append, hexMin_len]
    show 6 ≤ 2 + _ ∧ 2 + _ ≤ 12 ∧ (_ → 2 + _ = 6)
    omega
  · rename_i h
    have h1 : hexLen (0xd800 + (n - 0x10000) / 0x400) ≤ 4 := hexLen_four (by omega)
    have h2 : hexLen (0xdc00 + (n - 0x10000) % 0x400) ≤ 4 := hexLen_four (by omega)
    simp only [List.flatMap_cons, List.flatMap_nil, List.append_nil, List.length_append, hexMin_len]
    show 6 ≤ (2 + _) + (2 + _) ∧ (2 + _) + (2 + _) ≤ 12 ∧ (_ → (2 + _) + (2 + _) = 6)
    omega

theorem control_false (c : Char) : (!isControl c) = true ↔ ¬ Control c := by
  unfold isControl Control; simp; omega

theorem ascii_plain {c : Char} (h : isAscii c = true) (h' : (!isControl c) = true) : Printable c := by
  unfold isAscii at h
  rw [control_false] at h'
  unfold Control at h'
  unfold Printable
  simp at h
  omega

theorem not_printable {c : Char} (h : ¬ (isAscii c = true ∧ (!isControl c) = true)) : ¬ Printable c := by
  rw [control_false] at h
  unfold isAscii Control at h
  unfold Printable
  simp at h
  omega

theorem one_cFamily (c : Char) : One PlainAscii 10 c (escCFamily c) := by
  unfold escCFamily
  iterate 7 letter
  refine One.ite (fun h => ?_) (fun h1 => ?_); · subst h; exact .inr (by decide)
  refine One.ite (fun h => ?_) (fun h2 => ?_); · subst h; exact .inr (by decide)
  refine One.ite (fun h => ?_) (fun h3 => ?_); · subst h; exact .inr (by decide)
  refine One.ite (fun h => ?_) (fun _ => ?_); · subst h; exact .inl (by decide)
  refine One.ite (fun ha => .ite (fun hc => .inl ⟨⟨ascii_plain ha hc, h2, h1, h3⟩, rfl⟩) (fun hc => .inr ?_)) (fun ha => .ite (fun h => .inr ?_) (fun h => .inr ?_))
  · refine ⟨fun hp => not_printable (fun h => hc h.2) hp.1, ?_⟩
    have : c.toNat < 0x100 := by unfold isAscii at ha; simp at ha; omega
    have := hexLen_two this
    rw [List.length_append, hexMin_len]
    show 2 ≤ 2 + _ ∧ 2 + _ ≤ 10
    omega
  · refine ⟨fun hp => not_printable (fun h => ha h.1) hp.1, ?_⟩
    have := hexLen_four h
    rw [List.length_append, hexMin_len]
    show 2 ≤ 2 + _ ∧ 2 + _ ≤ 10
    omega
  · refine ⟨fun hp => not_printable (fun h => ha h.1) hp.1, ?_⟩
    have := hexLen_eight c.toNat
    rw [List.length_append, hexMin_len]
    show 2 ≤ 2 + _ ∧ 2 + _ ≤ 10
    omega

theorem one_java (c : Char) : One PlainAscii 12 c (escJava c) := by
  unfold escJava
  iterate 5 letter
  refine One.ite (fun h => ?_) (fun h1 => ?_); · subst h; exact .inr (by decide)
  refine One.ite (fun h => ?_) (fun h2 => ?_); · subst h; exact .inr (by decide)
  refine One.ite (fun h => ?_) (fun h3 => ?_); · subst h; exact .inr (by decide)
  refine One.ite (fun h => ?_) (fun _ => ?_); · subst h; exact .inl (by decide)
  refine One.ite (fun h => .inl ?_) (fun h => .inr ?_)
  · rw [Bool.and_eq_true] at h
    exact ⟨⟨ascii_plain h.1 h.2, h2, h1, h3⟩, rfl⟩
  · rw [Bool.and_eq_true] at h
    obtain ⟨u1, u2, -⟩ := escUtf16_len c
    exact ⟨fun hp => not_printable h hp.1, by omega, u2⟩

theorem control_lt {c : Char} (h : ¬ (!isControl c) = true) : c.toNat < 0x100 := by
  rw [control_false] at h
  unfold Control at h
  omega

theorem one_rust (c : Char) : One PlainRust 8 c (escRust c) := by
  unfold escRust
  iterate 3 letter
  refine One.ite (fun h => ?_) (fun h1 => ?_); · subst h; exact .inr (by decide)
  letter
  refine One.ite (fun h => ?_) (fun h2 => ?_); · subst h; exact .inr (by decide)
  refine One.ite (fun h => .inl ⟨⟨(control_false c).1 h, h2, h1⟩, rfl⟩) (fun h => ?_)
  have hp : ¬ PlainRust c := fun hp => h ((control_false c).2 hp.1)
  have hl := hexLen_two (control_lt h)
  refine One.ite (fun _ => .inr ⟨hp, ?_⟩) (fun _ => .inr ⟨hp, ?_⟩)
  · rw [List.length_append, hexMin_len]
    show 2 ≤ 2 + _ ∧ 2 + _ ≤ 8
    omega
  · rw [List.length_append, List.length_append, hexMin_len]
    show 2 ≤ 3 + _ + 1 ∧ 3 + _ + 1 ≤ 8
    omega

theorem one_js (c : Char) : One PlainRust 4 c (escJs c) := by
  unfold escJs
  iterate 7 letter
  refine One.ite (fun h => ?_) (fun h1 => ?_); · subst h; exact .inr (by decide)
  refine One.ite (fun h => ?_) (fun h2 => ?_); · subst h; exact .inr (by decide)
  refine One.ite (fun h => .inl ⟨⟨(control_false c).1 h, h1, h2⟩, rfl⟩) (fun h => ?_)
  have hp : ¬ PlainRust c := fun hp => h ((control_false c).2 hp.1)
  have hl := hexLen_two (control_lt h)
  refine One.ite (fun _ => .inr ⟨hp, ?_⟩) (fun h' => absurd (control_lt h) h')
  rw [List.length_append, hexMin_len]
  show 2 ≤ 2 + _ ∧ 2 + _ ≤ 4
  omega

theorem one_swift (c : Char) : One PlainSwift 6 c (escSwift c) := by
  unfold escSwift
  letter
  refine One.ite (fun h => ?_) (fun h3 => ?_); · subst h; exact .inr (by decide)
  iterate 3 letter
  refine One.ite (fun h => ?_) (fun h1 => ?_); · subst h; exact .inr (by decide)
  refine One.ite (fun h => ?_) (fun h2 => ?_); · subst h; exact .inr (by decide)
  refine One.ite (fun h => .inl ⟨⟨(control_false c).1 h, h2, h1, h3⟩, rfl⟩) (fun h => .inr ?_)
  refine ⟨fun hp => h ((control_false c).2 hp.1), ?_⟩
  have hl := hexLen_two (control_lt h)
  rw [List.length_append, List.length_append, hexMin_len]
  show 2 ≤ 3 + _ + 1 ∧ 3 + _ + 1 ≤ 6
  omega

theorem one_dart (c : Char) : One PlainDart 4 c (escDart c) := by
  unfold escDart
  iterate 6 letter
  refine One.ite (fun h => ?_) (fun h1 => ?_); · subst h; exact .inr (by decide)
  refine One.ite (fun h => ?_) (fun h2 => ?_); · subst h; exact .inr (by decide)
  refine One.ite (fun h => ?_) (fun h3 => ?_); · subst h; exact .inr (by decide)
  refine One.ite (fun h => .inl ⟨⟨(control_false c).1 h, h1, h2, h3⟩, rfl⟩) (fun h => ?_)
  have hp : ¬ PlainDart c := fun hp => h ((control_false c).2 hp.1)
  have hl := hexLen_two (control_lt h)
  refine One.ite (fun _ => .inr ⟨hp, ?_⟩) (fun h' => absurd (control_lt h) h')
  rw [List.length_append, hexMin_len]
  show 2 ≤ 2 + _ ∧ 2 + _ ≤ 4
  omega

theorem written_cFamily : Written escCFamily PlainAscii 10 (Char.ofNat 0x1f600) :=
  .of one_cFamily (by decide +kernel) (by decide)
theorem written_java : Written escJava PlainAscii 12 (Char.ofNat 0x1f600) :=
  .of one_java (by decide +kernel) (by decide)
theorem written_rust : Written escRust PlainRust 8 (Char.ofNat 0x80) :=
  .of one_rust (by decide +kernel) (by decide)
theorem written_js : Written escJs PlainRust 4 (Char.ofNat 0x80) :=
  .of one_js (by decide +kernel) (by decide)
theorem written_swift : Written escSwift PlainSwift 6 (Char.ofNat 0x80) :=
  .of one_swift (by decide +kernel) (by decide)
theorem written_dart : Written escDart PlainDart 4 (Char.ofNat 0x80) :=
  .of one_dart (by decide +kernel) (by decide)

end Genco
