import Verif.Proofs.Escape

/-!
# Escaping is injective, and which characters it writes
-/

set_option autoImplicit false

namespace Genco

open Spec

/-- What is written for a character tells the character, whatever follows. -/
def PrefixCode (esc : Char → Str) : Prop :=
  ∀ c d r r', esc c ++ r = esc d ++ r' → c = d

theorem PrefixCode.flatMap {esc : Char → Str} (h : PrefixCode esc) (hne : ∀ c, esc c ≠ []) {s t : Str}
    (he : s.flatMap esc = t.flatMap esc) : s = t := by
  induction s generalizing t with
  | nil =>
    cases t with
    | nil => rfl
    | cons d t =>
      have : esc d ++ t.flatMap esc = [] := by simpa using he.symm
      exact absurd (List.append_eq_nil_iff.1 this).1 (hne d)
  | cons c s ih =>
    cases t with
    | nil =>
      have : esc c ++ s.flatMap esc = [] := by simpa using he
      exact absurd (List.append_eq_nil_iff.1 this).1 (hne c)
    | cons d t =>
      rw [List.flatMap_cons, List.flatMap_cons] at he
      have := h c d _ _ he
      subst this
      rw [ih (List.append_cancel_left he)]

theorem prefix_rust : PrefixCode escRust := by
  intro c d r r' h
  have h1 := rust_step c r
  rw [h, rust_step d r'] at h1
  simp only [Option.some.injEq, Prod.mk.injEq, List.cons.injEq, and_true] at h1
  exact h1.1.symm

theorem prefix_swift : PrefixCode escSwift := by
  intro c d r r' h
  have h1 := swift_step c r
  rw [h, swift_step d r'] at h1
  simp only [Option.some.injEq, Prod.mk.injEq, List.cons.injEq, and_true] at h1
  exact h1.1.symm

/-- Equal up to the characters mixed up in reading. -/
theorem fix_cases {c d : Char} (h : cFamilyFix c = cFamilyFix d) :
    c = d ∨ (c = '\x12' ∧ d = '\x0c') ∨ (c = '\x0c' ∧ d = '\x12') ∨ (c = '\x11' ∧ d = '\x0b') ∨
      (c = '\x0b' ∧ d = '\x11') := by
  unfold cFamilyFix at h
  by_cases h1 : c = '\x12'
  · rw [if_pos h1] at h
    by_cases h2 : d = '\x12'
    · exact .inl (h1.trans h2.symm)
    · rw [if_neg h2] at h
      by_cases h3 : d = '\x11'
      · rw [if_pos h3] at h; exact absurd h (by decide)
      · rw [if_neg h3] at h; exact .inr (.inl ⟨h1, h.symm⟩)
  · rw [if_neg h1] at h
    by_cases h4 : c = '\x11'
    · rw [if_pos h4] at h
      by_cases h2 : d = '\x12'
      · rw [if_pos h2] at h; exact absurd h (by decide)
      · rw [if_neg h2] at h
        by_cases h3 : d = '\x11'
        · exact .inl (h4.trans h3.symm)
        · rw [if_neg h3] at h; exact .inr (.inr (.inr (.inl ⟨h4, h.symm⟩)))
    · rw [if_neg h4] at h
      by_cases h2 : d = '\x12'
      · rw [if_pos h2] at h; exact .inr (.inr (.inl ⟨h, h2⟩))
      · rw [if_neg h2] at h
        by_cases h3 : d = '\x11'
        · rw [if_pos h3] at h; exact .inr (.inr (.inr (.inr ⟨h, h3⟩)))
        · rw [if_neg h3] at h; exact .inl h

theorem prefix_fix {esc : Char → Str} (h12 : esc '\x12' = "\\f".toList) (h11 : esc '\x11' = "\\v".toList)
    (h0c : esc '\x0c' = "\\x0c".toList) (h0b : esc '\x0b' = "\\x0b".toList) {c d : Char} {r r' : Str}
    (h : esc c ++ r = esc d ++ r') (hf : cFamilyFix c = cFamilyFix d) : c = d := by
  rcases fix_cases hf with hc | ⟨rfl, rfl⟩ | ⟨rfl, rfl⟩ | ⟨rfl, rfl⟩ | ⟨rfl, rfl⟩
  · exact hc
  · rw [h12, h0c] at h; simp at h
  · rw [h12, h0c] at h; simp at h
  · rw [h11, h0b] at h; simp at h
  · rw [h11, h0b] at h; simp at h

theorem prefix_cFamily : PrefixCode escCFamily := by
  intro c d r r' h
  have h1 := python_step c r
  rw [h, python_step d r'] at h1
  simp only [Option.some.injEq, Prod.mk.injEq, List.cons.injEq, and_true] at h1
  exact prefix_fix (by decide) (by decide) (by decide) (by decide) h h1.1.symm

theorem char_ext {c d : Char} (h : c.toNat = d.toNat) : c = d := by
  rw [← Char.ofNat_toNat c, h, Char.ofNat_toNat]

theorem utf16_inj {c d : Char} (h : utf16 c = utf16 d) : c = d := by
  have hc := toNat_lt c
  have hd := toNat_lt d
  unfold utf16 at h
  split at h <;> split at h <;> simp only [List.cons.injEq, and_true, reduceCtorEq, and_false] at h
  · exact char_ext h
  · exact char_ext (by omega)

theorem prefix_dart : PrefixCode escDart := by
  intro c d r r' h
  have h1 := dart_step c r
  rw [h, dart_step d r'] at h1
  simp only [Option.some.injEq, Prod.mk.injEq] at h1
  exact prefix_fix (by decide) (by decide) (by decide) (by decide) h (utf16_inj h1.1.symm)

/-- Only NUL is written with `\0`. -/
theorem js_zero (d : Char) (r : Str) (h : (escJs d ++ r).take 2 = ['\\', '0']) : d = '\x00' := by
  by_cases h0 : d = '\x00'
  · exact h0
  · exfalso
    have one : ∀ (t : Str), t.take 2 ≠ ['\\', '0'] → t.length = 2 → (t ++ r).take 2 ≠ ['\\', '0'] := by
      intro t h hl
      rw [List.take_append_of_le_length (by omega)]
      exact h
    revert h
    unfold escJs
    by_cases hh : d = '\x08'
    · rw [if_pos hh]; exact one _ (by decide) rfl
    rw [if_neg hh]; clear hh
    by_cases hh : d = '\x12'
    · rw [if_pos hh]; exact one _ (by decide) rfl
    rw [if_neg hh]; clear hh
    by_cases hh : d = '\n'
    · rw [if_pos hh]; exact one _ (by decide) rfl
    rw [if_neg hh]; clear hh
    by_cases hh : d = '\r'
    · rw [if_pos hh]; exact one _ (by decide) rfl
    rw [if_neg hh]; clear hh
    by_cases hh : d = '\t'
    · rw [if_pos hh]; exact one _ (by decide) rfl
    rw [if_neg hh]; clear hh
    by_cases hh : d = '\x11'
    · rw [if_pos hh]; exact one _ (by decide) rfl
    rw [if_neg hh, if_neg h0]; clear hh
    by_cases hh : d = '"'
    · rw [if_pos hh]; exact one _ (by decide) rfl
    rw [if_neg hh]; clear hh
    by_cases hb : d = '\\'
    · rw [if_pos hb]; exact one _ (by decide) rfl
    rw [if_neg hb]
    split
    · simp [hb]
    · split <;> simp

theorem prefix_js : PrefixCode escJs := by
  have key : ∀ c d r r', c ≠ '\x00' → d ≠ '\x00' → escJs c ++ r = escJs d ++ r' → c = d := by
    intro c d r r' hc hd h
    have h1 := js_step c r (fun h => absurd h hc)
    rw [h, js_step d r' (fun h => absurd h hd)] at h1
    simp only [Option.some.injEq, Prod.mk.injEq] at h1
    exact prefix_fix (by decide) (by decide) (by decide) (by decide) h (utf16_inj h1.1.symm)
  intro c d r r' h
  by_cases hc : c = '\x00'
  · subst hc
    exact (js_zero d r' (by rw [← h]; rfl)).symm
  · by_cases hd : d = '\x00'
    · subst hd
      exact js_zero c r (by rw [h]; rfl)
    · exact key c d r r' hc hd h

/-! ## Java -/

/-- The two-character escapes of Java. -/
def javaPairs : List (Char × Char) :=
  [('\t', 't'), ('\x07', 'b'), ('\n', 'n'), ('\r', 'r'), ('\x14', 'f'), ('\'', '\''), ('"', '"'),
    ('\\', '\\')]

theorem java_shape (c : Char) :
    (∃ k, (c, k) ∈ javaPairs ∧ escJava c = ['\\', k]) ∨ (c ≠ '\\' ∧ escJava c = [c]) ∨
      escJava c = escUtf16 c := by
  unfold escJava
  by_cases h : c = '\t'
  · rw [if_pos h]; exact .inl ⟨'t', by rw [h]; decide, rfl⟩
  rw [if_neg h]; clear h
  by_cases h : c = '\x07'
  · rw [if_pos h]; exact .inl ⟨'b', by rw [h]; decide, rfl⟩
  rw [if_neg h]; clear h
  by_cases h : c = '\n'
  · rw [if_pos h]; exact .inl ⟨'n', by rw [h]; decide, rfl⟩
  rw [if_neg h]; clear h
  by_cases h : c = '\r'
  · rw [if_pos h]; exact .inl ⟨'r', by rw [h]; decide, rfl⟩
  rw [if_neg h]; clear h
  by_cases h : c = '\x14'
  · rw [if_pos h]; exact .inl ⟨'f', by rw [h]; decide, rfl⟩
  rw [if_neg h]; clear h
  by_cases h : c = '\''
  · rw [if_pos h]; exact .inl ⟨'\'', by rw [h]; decide, rfl⟩
  rw [if_neg h]; clear h
  by_cases h : c = '"'
  · rw [if_pos h]; exact .inl ⟨'"', by rw [h]; decide, rfl⟩
  rw [if_neg h]; clear h
  by_cases hb : c = '\\'
  · rw [if_pos hb]; exact .inl ⟨'\\', by rw [hb]; decide, rfl⟩
  rw [if_neg hb]
  by_cases h : c = ' '
  · rw [if_pos h]; exact .inr (.inl ⟨hb, by rw [h]⟩)
  rw [if_neg h]
  split
  · exact .inr (.inl ⟨hb, rfl⟩)
  · exact .inr (.inr rfl)

theorem unit_inj {u v : Nat} (hu : u < 0x10000) (hv : v < 0x10000) {r r' : Str}
    (h : ("\\u".toList ++ hexMin 4 u) ++ r = ("\\u".toList ++ hexMin 4 v) ++ r') : u = v ∧ r = r' := by
  rw [hexMin_eq _ _ (by omega) (show u < 16 ^ 4 by omega),
    hexMin_eq _ _ (by omega) (show v < 16 ^ 4 by omega)] at h
  have h' : hexFixed 4 u ++ r = hexFixed 4 v ++ r' := by simpa using h
  have h1 := hexExact_fixed' 4 u (by omega) r
  rw [h', hexExact_fixed' 4 v (by omega) r'] at h1
  simp only [Option.some.injEq, Prod.mk.injEq] at h1
  exact ⟨h1.1.symm, h1.2.symm⟩

theorem escUtf16_head (c : Char) : ∃ t, escUtf16 c = '\\' :: 'u' :: t := by
  have key : ∀ (u : Nat) (r : Str), ("\\u".toList ++ hexMin 4 u) ++ r = '\\' :: 'u' :: (hexMin 4 u ++ r) :=
    fun u r => by simp
  unfold escUtf16 utf16Char
  split <;> rw [List.flatMap_cons, key] <;> exact ⟨_, rfl⟩

theorem prefix_utf16 : PrefixCode escUtf16 := by
  intro c d r r' h
  have hc := toNat_lt c
  have hd := toNat_lt d
  have hcv : c.toNat < 55296 ∨ 57343 < c.toNat ∧ c.toNat < 1114112 := c.valid
  have hdv : d.toNat < 55296 ∨ 57343 < d.toNat ∧ d.toNat < 1114112 := d.valid
  unfold escUtf16 utf16Char at h
  split at h <;> split at h <;> simp only [List.flatMap_cons, List.flatMap_nil, List.append_nil] at h
  · exact char_ext (unit_inj (by omega) (by omega) h).1
  · rw [List.append_assoc (_ ++ _) _ r'] at h
    have := (unit_inj (by omega) (by omega) h).1
    omega
  · rw [List.append_assoc (_ ++ _) _ r] at h
    have := (unit_inj (by omega) (by omega) h).1
    omega
  · rw [List.append_assoc (_ ++ _) _ r, List.append_assoc (_ ++ _) _ r'] at h
    obtain ⟨h1, h2⟩ := unit_inj (by omega) (by omega) h
    have := (unit_inj (by omega) (by omega) h2).1
    exact char_ext (by omega)

theorem javaPairs_u : ∀ p ∈ javaPairs, p.2 ≠ 'u' := by decide
theorem javaPairs_inj : ∀ p ∈ javaPairs, ∀ q ∈ javaPairs, p.2 = q.2 → p.1 = q.1 := by decide

theorem prefix_java : PrefixCode escJava := by
  intro c d r r' h
  rcases java_shape c with ⟨k, hk, h1⟩ | ⟨hc, h1⟩ | h1 <;>
    rcases java_shape d with ⟨k', hk', h2⟩ | ⟨hd, h2⟩ | h2 <;> rw [h1, h2] at h
  · exact javaPairs_inj _ hk _ hk' (by simpa using (List.cons.inj (List.cons.inj h).2).1)
  · exact absurd (List.cons.inj h).1.symm hd
  · obtain ⟨t, ht⟩ := escUtf16_head d
    rw [ht] at h
    exact absurd (List.cons.inj (List.cons.inj h).2).1 (javaPairs_u _ hk)
  · exact absurd (List.cons.inj h).1 hc
  · exact (List.cons.inj h).1
  · obtain ⟨t, ht⟩ := escUtf16_head d
    rw [ht] at h
    exact absurd (List.cons.inj h).1 hc
  · obtain ⟨t, ht⟩ := escUtf16_head c
    rw [ht] at h
    exact absurd (List.cons.inj (List.cons.inj h).2).1.symm (javaPairs_u _ hk')
  · obtain ⟨t, ht⟩ := escUtf16_head c
    rw [ht] at h
    exact absurd (List.cons.inj h).1.symm hd
  · exact prefix_utf16 c d r r' h

theorem escJava_ne (c : Char) : escJava c ≠ [] := by
  rcases java_shape c with ⟨k, hk, h1⟩ | ⟨hc, h1⟩ | h1 <;> rw [h1]
  · simp
  · simp
  · exact escUtf16_ne c

/-! ## Characters written -/

/-- Every character of the text satisfies `P`. -/
def AllC (P : Char → Bool) (s : Str) : Prop := ∀ c ∈ s, P c = true

theorem AllC.append {P : Char → Bool} {a b : Str} (ha : AllC P a) (hb : AllC P b) : AllC P (a ++ b) := by
  intro c hc
  rcases List.mem_append.1 hc with h | h
  · exact ha c h
  · exact hb c h

theorem AllC.ite {P : Char → Bool} {p : Prop} [Decidable p] {a b : Str} (h1 : p → AllC P a)
    (h2 : ¬ p → AllC P b) : AllC P (if p then a else b) := by
  split
  · exact h1 ‹_›
  · exact h2 ‹_›

theorem AllC.flatMap {α : Type} {P : Char → Bool} {f : α → Str} (h : ∀ a, AllC P (f a)) (l : List α) :
    AllC P (l.flatMap f) := by
  intro c hc
  obtain ⟨a, -, ha⟩ := List.mem_flatMap.1 hc
  exact h a c ha

/-- Visible ASCII and space. -/
def printable (c : Char) : Bool := decide (0x20 ≤ c.toNat) && decide (c.toNat < 0x7f)

theorem printable_hex (k n : Nat) : AllC printable (hexMin k n) := by
  intro c hc
  obtain ⟨d, hd, rfl⟩ := hexFixed_digits _ _ c hc
  have : ∀ d : Fin 16, printable (hexDigit d.1) = true := by decide
  exact this ⟨d, hd⟩

theorem printable_control {c : Char} (h : printable c = true) : isControl c = false := by
  simp only [printable, Bool.and_eq_true, decide_eq_true_eq] at h
  simp only [isControl, Bool.or_eq_false_iff, Bool.and_eq_false_iff, decide_eq_false_iff_not]
  omega

theorem printable_raw {c : Char} (h1 : isAscii c = true) (h2 : (!isControl c) = true) :
    printable c = true := by
  simp only [isAscii, decide_eq_true_eq] at h1
  simp only [isControl, Bool.not_eq_true', Bool.or_eq_false_iff, Bool.and_eq_false_iff,
    decide_eq_false_iff_not] at h2
  simp only [printable, Bool.and_eq_true, decide_eq_true_eq]
  omega

theorem AllC.lit {P : Char → Bool} {s : Str} (h : s.all P = true) : AllC P s := by
  simpa [AllC] using h

/-- Take a branch with a fixed text off a chain. -/
local macro "fixed" : tactic =>
  `(tactic| refine AllC.ite (fun _ => AllC.lit (by decide)) (fun _ => ?_))

theorem allC_cFamily (c : Char) : AllC printable (escCFamily c) := by
  unfold escCFamily
  iterate 11 fixed
  refine .ite (fun h => .ite (fun h' => ?_) (fun _ => .append (.lit (by decide)) (printable_hex _ _)))
    (fun _ => .ite (fun _ => .append (.lit (by decide)) (printable_hex _ _))
      (fun _ => .append (.lit (by decide)) (printable_hex _ _)))
  intro d hd
  rw [List.mem_singleton.1 hd]
  exact printable_raw h h'

theorem allC_utf16 (c : Char) : AllC printable (escUtf16 c) :=
  .flatMap (fun _ => .append (.lit (by decide)) (printable_hex _ _)) _

theorem allC_java (c : Char) : AllC printable (escJava c) := by
  unfold escJava
  iterate 9 fixed
  refine .ite (fun h => ?_) (fun _ => allC_utf16 c)
  intro d hd
  rw [List.mem_singleton.1 hd]
  simp only [Bool.and_eq_true] at h
  exact printable_raw h.1 h.2

/-- Not a control character. -/
def shown (c : Char) : Bool := !isControl c

theorem AllC.shown {s : Str} (h : AllC printable s) : AllC shown s := by
  intro c hc
  simp [Genco.shown, printable_control (h c hc)]

theorem AllC.raw {c : Char} (h : (!isControl c) = true) : AllC Genco.shown [c] := by
  intro d hd
  rw [List.mem_singleton.1 hd]
  exact h

theorem allC_rust (c : Char) : AllC shown (escRust c) := by
  unfold escRust
  iterate 6 fixed
  exact .ite (fun h => .raw h) (fun _ => .ite (fun _ => .append (.lit (by decide)) (printable_hex _ _).shown)
    (fun _ => .append (.append (.lit (by decide)) (printable_hex _ _).shown) (.lit (by decide))))

theorem allC_swift (c : Char) : AllC shown (escSwift c) := by
  unfold escSwift
  iterate 7 fixed
  exact .ite (fun h => .raw h)
    (fun _ => .append (.append (.lit (by decide)) (printable_hex _ _).shown) (.lit (by decide)))

theorem allC_js (c : Char) : AllC shown (escJs c) := by
  unfold escJs
  iterate 9 fixed
  exact .ite (fun h => .raw h) (fun _ => .ite (fun _ => .append (.lit (by decide)) (printable_hex _ _).shown)
    (fun _ => .append (.append (.lit (by decide)) (printable_hex _ _).shown) (.lit (by decide))))

theorem allC_dart (c : Char) : AllC shown (escDart c) := by
  unfold escDart
  iterate 9 fixed
  exact .ite (fun h => .raw h) (fun _ => .ite (fun _ => .append (.lit (by decide)) (printable_hex _ _).shown)
    (fun _ => (allC_utf16 c).shown))

end Genco
