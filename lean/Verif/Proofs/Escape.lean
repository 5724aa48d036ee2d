import Verif.Model.Escape
import Verif.Spec.Strings

/-!
# Quoted text read back
-/

set_option autoImplicit false

namespace Genco

open Spec

/-! ## Reading element by element -/

theorem readAll_flatMap {α : Type} (rd : Reader α) (esc : Char → Str) (out : Char → List α)
    (hne : ∀ c, esc c ≠ []) (s : Str)
    (h : ∀ p c r, s = p ++ c :: r →
      rd (esc c ++ r.flatMap esc) = some (out c, r.flatMap esc))
    (fuel : Nat) (hf : s.length ≤ fuel) :
    readAll rd fuel (s.flatMap esc) = some (s.flatMap out) := by
  induction s generalizing fuel with
  | nil => cases fuel <;> rfl
  | cons c s ih =>
    have h0 := h [] c s rfl
    have ih := ih (fun p d r hp => h (c :: p) d r (by rw [hp]; rfl))
    cases fuel with
    | zero => simp at hf
    | succ fuel =>
      have ih := ih fuel (by simpa using hf)
      rw [List.flatMap_cons, List.flatMap_cons]
      rcases he : esc c with _ | ⟨x, t⟩
      · exact absurd he (hne c)
      · rw [he] at h0
        simp only [List.cons_append] at h0 ⊢
        rw [readAll, h0]
        simp only
        rw [ih]
        rfl

theorem length_le_flatMap (esc : Char → Str) (hne : ∀ c, esc c ≠ []) (s : Str) :
    s.length ≤ (s.flatMap esc).length := by
  induction s with
  | nil => simp
  | cons c s ih =>
    have := List.length_pos_iff.2 (hne c)
    simp only [List.flatMap_cons, List.length_append, List.length_cons]
    omega

theorem decode_flatMap {α : Type} (rd : Reader α) (esc : Char → Str) (out : Char → List α)
    (hne : ∀ c, esc c ≠ []) (s : Str)
    (h : ∀ p c r, s = p ++ c :: r →
      rd (esc c ++ r.flatMap esc) = some (out c, r.flatMap esc)) :
    decode rd (s.flatMap esc) = some (s.flatMap out) :=
  readAll_flatMap rd esc out hne s h _ (length_le_flatMap esc hne s)

theorem flatMap_single {α β : Type} (f : α → β) (s : List α) : s.flatMap (fun c => [f c]) = s.map f := by
  induction s with
  | nil => rfl
  | cons c s ih => simp [ih]

/-! ## Hexadecimal digits -/

theorem hexVal_digit (d : Nat) (h : d < 16) : hexVal (hexDigit d) = some d := by
  have : ∀ d : Fin 16, hexVal (hexDigit d.1) = some d.1 := by decide
  exact this ⟨d, h⟩

theorem mod_pow_succ (n j : Nat) : (n / 16 % 16 ^ j) * 16 + n % 16 = n % 16 ^ (j + 1) := by
  rw [Nat.pow_succ', Nat.mod_mul]; omega

theorem hexExact_fixed (j m acc n : Nat) (rest : Str) :
    hexExact (j + m) acc (hexFixed j n ++ rest) =
      hexExact m (acc * 16 ^ j + n % 16 ^ j) rest := by
  induction j generalizing n m rest with
  | zero => simp [hexFixed, Nat.mod_one]
  | succ j ih =>
    rw [hexFixed, List.append_assoc, List.singleton_append,
      show j + 1 + m = j + (m + 1) by omega, ih, hexExact, hexVal_digit _ (Nat.mod_lt _ (by omega))]
    simp only
    congr 1
    have := mod_pow_succ n j
    rw [Nat.add_mul, Nat.mul_assoc, ← Nat.pow_succ, Nat.succ_eq_add_one]
    omega

theorem hexExact_fixed' (j n : Nat) (h : n < 16 ^ j) (rest : Str) :
    hexExact j 0 (hexFixed j n ++ rest) = some (n, rest) := by
  have := hexExact_fixed j 0 0 n rest
  rw [Nat.add_zero] at this
  rw [this, hexExact, Nat.mod_eq_of_lt h]
  simp

theorem hexUpTo_fixed (j m cnt acc n : Nat) (rest : Str) :
    hexUpTo (j + m) cnt acc (hexFixed j n ++ rest) =
      hexUpTo m (cnt + j) (acc * 16 ^ j + n % 16 ^ j) rest := by
  induction j generalizing n m rest with
  | zero => simp [hexFixed, Nat.mod_one]
  | succ j ih =>
    rw [hexFixed, List.append_assoc, List.singleton_append,
      show j + 1 + m = j + (m + 1) by omega, ih, hexUpTo, hexVal_digit _ (Nat.mod_lt _ (by omega))]
    simp only
    congr 1
    have := mod_pow_succ n j
    rw [Nat.add_mul, Nat.mul_assoc, ← Nat.pow_succ, Nat.succ_eq_add_one]
    omega

/-- No hexadecimal digit comes next. -/
def NoHex (r : Str) : Prop := ∀ c, r.head? = some c → hexVal c = none

theorem hexUpTo_stop (m cnt acc : Nat) (r : Str) (h : NoHex r) : hexUpTo m cnt acc r = (cnt, acc, r) := by
  cases m with
  | zero => rfl
  | succ m =>
    cases r with
    | nil => rfl
    | cons c r => rw [hexUpTo, h c rfl]

theorem hexBraced_fixed (k j n : Nat) (h1 : 0 < j) (h2 : j ≤ k) (h : n < 16 ^ j) (rest : Str) :
    hexBraced k (hexFixed j n ++ '}' :: rest) = some (n, rest) := by
  obtain ⟨m, rfl⟩ : ∃ m, k = j + m := ⟨k - j, by omega⟩
  obtain ⟨i, rfl⟩ : ∃ i, j = i + 1 := ⟨j - 1, by omega⟩
  unfold hexBraced
  rw [hexUpTo_fixed, hexUpTo_stop _ _ _ _ (by intro c hc; simp at hc; subst hc; rfl),
    Nat.mod_eq_of_lt h]
  simp

theorem lt_pow_hexLen (n : Nat) (h : n < 16 ^ 8) : n < 16 ^ hexLen n := by
  unfold hexLen
  repeat' split
  all_goals omega

theorem hexLen_pos (n : Nat) : 0 < hexLen n := by
  unfold hexLen
  repeat' split
  all_goals omega

theorem hexLen_le (n k : Nat) (hk : 0 < k) (h : n < 16 ^ k) : hexLen n ≤ k := by
  have h' : k = 1 ∨ k = 2 ∨ k = 3 ∨ k = 4 ∨ k = 5 ∨ k = 6 ∨ k = 7 ∨ 8 ≤ k := by omega
  unfold hexLen
  rcases h' with rfl | rfl | rfl | rfl | rfl | rfl | rfl | h' <;>
    repeat' split
  all_goals omega

theorem hexMin_eq (k n : Nat) (hk : 0 < k) (h : n < 16 ^ k) : hexMin k n = hexFixed k n := by
  unfold hexMin
  rw [Nat.max_eq_left (hexLen_le n k hk h)]

theorem hexMin_one (n : Nat) : hexMin 1 n = hexFixed (hexLen n) n := by
  unfold hexMin
  rw [Nat.max_eq_right (hexLen_pos n)]

theorem length_hexFixed (k n : Nat) : (hexFixed k n).length = k := by
  induction k generalizing n with
  | zero => rfl
  | succ k ih => simp [hexFixed, ih]

theorem hexFixed_digits (k n : Nat) : ∀ c ∈ hexFixed k n, ∃ d, d < 16 ∧ c = hexDigit d := by
  induction k generalizing n with
  | zero => simp [hexFixed]
  | succ k ih =>
    intro c hc
    simp only [hexFixed, List.mem_append, List.mem_singleton] at hc
    rcases hc with hc | rfl
    · exact ih _ c hc
    · exact ⟨_, Nat.mod_lt _ (by omega), rfl⟩

theorem scalar_toNat (c : Char) : scalar c.toNat = some c := by
  unfold scalar
  rw [if_pos (show c.toNat.isValidChar from c.valid), Char.ofNat_toNat]

theorem toNat_lt (c : Char) : c.toNat < 0x110000 := by
  have h : c.toNat < 55296 ∨ 57343 < c.toNat ∧ c.toNat < 1114112 := c.valid
  omega

theorem isControl_lt {c : Char} (h : isControl c = true) : c.toNat < 0xa0 := by
  simp [isControl] at h; omega

theorem hexFixed_eight (n : Nat) (h : n < 0x110000) :
    hexExact 8 0 (hexFixed 8 n) = some (n, []) := by
  have := hexExact_fixed' 8 n (by omega) []
  simpa using this

/-- Take one branch `if p then … else …` off a chain; the first branch is an
equation settling the goal by computation. -/
local macro "peel" t:term : tactic =>
  `(tactic| (by_cases hh : $t; (· rw [if_pos hh]; subst hh; rfl); rw [if_neg hh]))

/-! ## Rust and Swift -/

theorem ite_ne {p : Prop} [Decidable p] (a b : Str) (z : Str) (h1 : a ≠ z) (h2 : b ≠ z) :
    (if p then a else b) ≠ z := by
  split <;> assumption

theorem escRust_ne (c : Char) : escRust c ≠ [] := by
  unfold escRust
  refine ite_ne _ _ _ (by simp) ?_
  refine ite_ne _ _ _ (by simp) ?_
  refine ite_ne _ _ _ (by simp) ?_
  refine ite_ne _ _ _ (by simp) ?_
  refine ite_ne _ _ _ (by simp) ?_
  refine ite_ne _ _ _ (by simp) ?_
  refine ite_ne _ _ _ (by simp) (ite_ne _ _ _ (by simp) (by simp))

theorem rust_step (c : Char) (rest : Str) : rustReader (escRust c ++ rest) = some ([c], rest) := by
  unfold escRust
  peel c = '\n'
  peel c = '\r'
  peel c = '\t'
  peel c = '\\'
  peel c = '\x00'
  peel c = '"'
  repeat' split
  · simp only [List.singleton_append, rustReader]
    rw [if_neg (by assumption), if_neg (by simp_all)]
  · rename_i h
    have hc : c.toNat < 16 ^ 2 := by omega
    rw [hexMin_eq _ _ (by omega) hc]
    show (hexExact 2 0 (hexFixed 2 c.toNat ++ rest)).bind _ = _
    rw [hexExact_fixed' _ _ hc]
    simp only [Option.bind_some]
    rw [if_pos (by omega), Char.ofNat_toNat]
  · rename_i h h'
    have := isControl_lt (c := c) (by simpa using h)
    have hc : c.toNat < 16 ^ 4 := by omega
    rw [hexMin_eq _ _ (by omega) hc, List.append_assoc, List.append_assoc]
    show (hexBraced 6 (hexFixed 4 c.toNat ++ '}' :: rest)).bind _ = _
    rw [hexBraced_fixed _ _ _ (by omega) (by omega) hc]
    simp only [Option.bind_some, scalar_toNat, Option.map_some]

theorem escSwift_ne (c : Char) : escSwift c ≠ [] := by
  unfold escSwift
  refine ite_ne _ _ _ (by simp) ?_
  refine ite_ne _ _ _ (by simp) ?_
  refine ite_ne _ _ _ (by simp) ?_
  refine ite_ne _ _ _ (by simp) ?_
  refine ite_ne _ _ _ (by simp) ?_
  refine ite_ne _ _ _ (by simp) ?_
  refine ite_ne _ _ _ (by simp) ?_
  exact ite_ne _ _ _ (by simp) (by simp)

theorem swift_step (c : Char) (rest : Str) : swiftReader (escSwift c ++ rest) = some ([c], rest) := by
  unfold escSwift
  peel c = '\x00'
  peel c = '\\'
  peel c = '\t'
  peel c = '\n'
  peel c = '\r'
  peel c = '\''
  peel c = '"'
  repeat' split
  · simp only [List.singleton_append, swiftReader]
    rw [if_neg (by assumption), if_neg (by simp_all)]
  · have hc := lt_pow_hexLen c.toNat (by have := toNat_lt c; omega)
    rw [hexMin_one, List.append_assoc, List.append_assoc]
    show (hexBraced 8 (hexFixed (hexLen c.toNat) c.toNat ++ '}' :: rest)).bind _ = _
    rw [hexBraced_fixed _ _ _ (hexLen_pos _)
      (hexLen_le _ _ (by omega) (by have := toNat_lt c; omega)) hc]
    simp only [Option.bind_some, scalar_toNat, Option.map_some]

/-! ## The C family -/

/-- The characters `c_family_write_quoted` mixes up: U+0012 is written as a form
feed and U+0011 as a vertical tab. -/
def cFamilyFix (c : Char) : Char :=
  if c = '\x12' then '\x0c' else if c = '\x11' then '\x0b' else c

theorem escCFamily_ne (c : Char) : escCFamily c ≠ [] := by
  unfold escCFamily
  refine ite_ne _ _ _ (by simp) ?_
  refine ite_ne _ _ _ (by simp) ?_
  refine ite_ne _ _ _ (by simp) ?_
  refine ite_ne _ _ _ (by simp) ?_
  refine ite_ne _ _ _ (by simp) ?_
  refine ite_ne _ _ _ (by simp) ?_
  refine ite_ne _ _ _ (by simp) ?_
  refine ite_ne _ _ _ (by simp) ?_
  refine ite_ne _ _ _ (by simp) ?_
  refine ite_ne _ _ _ (by simp) ?_
  refine ite_ne _ _ _ (by simp) ?_
  exact ite_ne _ _ _ (ite_ne _ _ _ (by simp) (by simp)) (ite_ne _ _ _ (by simp) (by simp))

theorem cFamilyFix_ne (c : Char) (h1 : c ≠ '\x12') (h2 : c ≠ '\x11') : cFamilyFix c = c := by
  unfold cFamilyFix; rw [if_neg h1, if_neg h2]

theorem python_step (c : Char) (rest : Str) :
    pythonReader (escCFamily c ++ rest) = some ([cFamilyFix c], rest) := by
  unfold escCFamily
  peel c = '\x07'
  peel c = '\x08'
  peel c = '\x12'
  peel c = '\n'
  peel c = '\r'
  peel c = '\t'
  peel c = '\x11'
  peel c = '\''
  peel c = '"'
  peel c = '\\'
  peel c = ' '
  repeat' split
  all_goals rw [cFamilyFix_ne c (by assumption) (by assumption)]
  · simp only [List.singleton_append, pythonReader]
    rw [if_neg (by assumption), if_neg (by simp_all)]
  · rename_i h _
    have hc : c.toNat < 16 ^ 2 := by simp [isAscii] at h; omega
    rw [hexMin_eq _ _ (by omega) hc]
    show (hexExact 2 0 (hexFixed 2 c.toNat ++ rest)).bind _ = _
    rw [hexExact_fixed' _ _ hc]
    simp only [Option.bind_some, scalar_toNat, Option.map_some]
  · rename_i _ h
    have hc : c.toNat < 16 ^ 4 := by omega
    rw [hexMin_eq _ _ (by omega) hc]
    show (hexExact 4 0 (hexFixed 4 c.toNat ++ rest)).bind _ = _
    rw [hexExact_fixed' _ _ hc]
    simp only [Option.bind_some, scalar_toNat, Option.map_some]
  · have hc : c.toNat < 16 ^ 8 := by have := toNat_lt c; omega
    rw [hexMin_eq _ _ (by omega) hc]
    show (hexExact 8 0 (hexFixed 8 c.toNat ++ rest)).bind _ = _
    rw [hexExact_fixed' _ _ hc]
    simp only [Option.bind_some, scalar_toNat, Option.map_some]

theorem bytes_ascii (c : Char) (h : c.toNat < 0x80) : bytes c = [UInt8.ofNat c.toNat] := by
  have h' : c.val.toNat ≤ 127 := by have : c.val.toNat = c.toNat := rfl; omega
  unfold bytes String.utf8EncodeChar
  simp only [h', if_true]
  rfl

theorem go_step (c : Char) (rest : Str) (hq : c ≠ '\'') :
    goReader (escCFamily c ++ rest) = some (bytes (cFamilyFix c), rest) := by
  unfold escCFamily
  peel c = '\x07'
  peel c = '\x08'
  peel c = '\x12'
  peel c = '\n'
  peel c = '\r'
  peel c = '\t'
  peel c = '\x11'
  rw [if_neg hq]
  peel c = '"'
  peel c = '\\'
  peel c = ' '
  repeat' split
  all_goals rw [cFamilyFix_ne c (by assumption) (by assumption)]
  · simp only [List.singleton_append, goReader]
    rw [if_neg (by assumption), if_neg (by simp_all)]
  · rename_i h _
    have hc : c.toNat < 16 ^ 2 := by simp [isAscii] at h; omega
    rw [hexMin_eq _ _ (by omega) hc]
    show (hexExact 2 0 (hexFixed 2 c.toNat ++ rest)).map _ = _
    rw [hexExact_fixed' _ _ hc, bytes_ascii c (by simpa [isAscii] using h)]
    rfl
  · rename_i _ h
    have hc : c.toNat < 16 ^ 4 := by omega
    rw [hexMin_eq _ _ (by omega) hc]
    show (hexExact 4 0 (hexFixed 4 c.toNat ++ rest)).bind _ = _
    rw [hexExact_fixed' _ _ hc]
    simp only [Option.bind_some, scalar_toNat, Option.map_some]
  · have hc : c.toNat < 16 ^ 8 := by have := toNat_lt c; omega
    rw [hexMin_eq _ _ (by omega) hc]
    show (hexExact 8 0 (hexFixed 8 c.toNat ++ rest)).bind _ = _
    rw [hexExact_fixed' _ _ hc]
    simp only [Option.bind_some, scalar_toNat, Option.map_some]

theorem utf16_small (c : Char) (h : c.toNat < 0x10000) : utf16 c = [c.toNat] := by
  unfold utf16; rw [if_pos (by omega)]

theorem csharp_step (c : Char) (rest : Str) (hx : hexed c = true → NoHex rest) :
    csharpReader (escCFamily c ++ rest) = some (utf16 (cFamilyFix c), rest) := by
  unfold escCFamily
  peel c = '\x07'
  peel c = '\x08'
  peel c = '\x12'
  peel c = '\n'
  peel c = '\r'
  peel c = '\t'
  peel c = '\x11'
  peel c = '\''
  peel c = '"'
  peel c = '\\'
  peel c = ' '
  repeat' split
  all_goals rw [cFamilyFix_ne c (by assumption) (by assumption)]
  · rename_i h _
    have h : c.toNat < 0x80 := by simpa [isAscii] using h
    simp only [List.singleton_append, csharpReader]
    rw [if_neg (by assumption), if_neg]
    have h1 : c.toNat ≠ 0x85 := by omega
    have h2 : c.toNat ≠ 0x2028 := by omega
    have h3 : c.toNat ≠ 0x2029 := by omega
    simp_all
  · rename_i h h'
    have hc : c.toNat < 16 ^ 2 := by simp [isAscii] at h; omega
    rw [hexMin_eq _ _ (by omega) hc]
    show csharpEscape ('x' :: (hexFixed 2 c.toNat ++ rest)) = _
    rw [csharpEscape, if_pos rfl, show (4 : Nat) = 2 + 2 from rfl, hexUpTo_fixed,
      hexUpTo_stop _ _ _ _ (hx (by
        simp only [isControl, Bool.not_eq_true', Bool.not_eq_false] at h'
        have h : c.toNat < 0x80 := by simpa [isAscii] using h
        simp [hexed, Spec.control, *])), Nat.mod_eq_of_lt hc,
      utf16_small c (by omega)]
    simp
  · rename_i _ h
    have hc : c.toNat < 16 ^ 4 := by omega
    rw [hexMin_eq _ _ (by omega) hc]
    show (hexExact 4 0 (hexFixed 4 c.toNat ++ rest)).map _ = _
    rw [hexExact_fixed' _ _ hc, utf16_small c (by omega)]
    rfl
  · have hc : c.toNat < 16 ^ 8 := by have := toNat_lt c; omega
    rw [hexMin_eq _ _ (by omega) hc]
    show (hexExact 8 0 (hexFixed 8 c.toNat ++ rest)).bind _ = _
    rw [hexExact_fixed' _ _ hc]
    simp only [Option.bind_some, scalar_toNat, Option.map_some]

theorem c_step (c : Char) (rest : Str) (h8 : isControl c = true → c.toNat < 0x80)
    (hx : hexed c = true → NoHex rest) :
    cReader (escCFamily c ++ rest) = some (bytes (cFamilyFix c), rest) := by
  unfold escCFamily
  peel c = '\x07'
  peel c = '\x08'
  peel c = '\x12'
  peel c = '\n'
  peel c = '\r'
  peel c = '\t'
  peel c = '\x11'
  peel c = '\''
  peel c = '"'
  peel c = '\\'
  peel c = ' '
  repeat' split
  all_goals rw [cFamilyFix_ne c (by assumption) (by assumption)]
  · simp only [List.singleton_append, cReader]
    rw [if_neg (by assumption), if_neg (by simp_all)]
  · rename_i h h'
    have h80 : c.toNat < 0x80 := by simpa [isAscii] using h
    have hc : c.toNat < 16 ^ 2 := by omega
    rw [hexMin_eq _ _ (by omega) hc]
    show cEscape ('x' :: (hexFixed 2 c.toNat ++ rest)) = _
    rw [cEscape]
    simp only [if_true]
    rw [List.length_append, length_hexFixed, hexUpTo_fixed,
      hexUpTo_stop _ _ _ _ (hx (by
        simp only [isControl, Bool.not_eq_true', Bool.not_eq_false] at h'
        simp [hexed, Spec.control, *])), Nat.mod_eq_of_lt hc, bytes_ascii c h80]
    simp only [Nat.zero_mul, Nat.zero_add]
    rw [if_pos (by omega)]
  · rename_i h' h
    have hA : 0xa0 ≤ c.toNat := by
      by_cases hcon : isControl c = true
      · have := h8 hcon; simp [isAscii] at h'; omega
      · simp [isAscii, isControl] at h' hcon; omega
    have hc : c.toNat < 16 ^ 4 := by omega
    rw [hexMin_eq _ _ (by omega) hc]
    show (hexExact 4 0 (hexFixed 4 c.toNat ++ rest)).bind _ = _
    rw [hexExact_fixed' _ _ hc]
    simp only [Option.bind_some, scalar_toNat, Option.map_some]
    rw [if_neg (by omega)]
  · have hc : c.toNat < 16 ^ 8 := by have := toNat_lt c; omega
    rw [hexMin_eq _ _ (by omega) hc]
    show (hexExact 8 0 (hexFixed 8 c.toNat ++ rest)).bind _ = _
    rw [hexExact_fixed' _ _ hc]
    simp only [Option.bind_some, scalar_toNat, Option.map_some]
    rw [if_neg (by omega)]

/-! ## JavaScript and Dart -/

theorem escJs_ne (c : Char) : escJs c ≠ [] := by
  unfold escJs
  refine ite_ne _ _ _ (by simp) ?_
  refine ite_ne _ _ _ (by simp) ?_
  refine ite_ne _ _ _ (by simp) ?_
  refine ite_ne _ _ _ (by simp) ?_
  refine ite_ne _ _ _ (by simp) ?_
  refine ite_ne _ _ _ (by simp) ?_
  refine ite_ne _ _ _ (by simp) ?_
  refine ite_ne _ _ _ (by simp) ?_
  refine ite_ne _ _ _ (by simp) ?_
  exact ite_ne _ _ _ (by simp) (ite_ne _ _ _ (by simp) (by simp))

/-- No decimal digit comes next. -/
def NoDigit (r : Str) : Prop := ∀ c, r.head? = some c → ¬ (48 ≤ c.toNat ∧ c.toNat ≤ 57)

theorem jsEscape_zero (rest : Str) (h : NoDigit rest) : jsEscape ('0' :: rest) = some ([0], rest) := by
  cases rest with
  | nil => rfl
  | cons d r =>
    have := h d rfl
    show (if 48 ≤ d.toNat ∧ d.toNat ≤ 57 then none else some ([0], d :: r)) = _
    rw [if_neg this]

theorem jsEscape_hex (c : Char) (hc : c.toNat < 0x100) (rest : Str) :
    jsEscape ('x' :: (hexMin 2 c.toNat ++ rest)) = some (utf16 c, rest) := by
  have hc : c.toNat < 16 ^ 2 := by omega
  rw [hexMin_eq _ _ (by omega) hc]
  show (hexExact 2 0 (hexFixed 2 c.toNat ++ rest)).map _ = _
  rw [hexExact_fixed' _ _ hc, utf16_small c (by omega)]
  rfl

theorem js_step (c : Char) (rest : Str) (hz : c = '\x00' → NoDigit rest) :
    jsReader (escJs c ++ rest) = some (utf16 (cFamilyFix c), rest) := by
  unfold escJs
  peel c = '\x08'
  peel c = '\x12'
  peel c = '\n'
  peel c = '\r'
  peel c = '\t'
  peel c = '\x11'
  by_cases h0 : c = '\x00'
  · rw [if_pos h0]; subst h0; exact jsEscape_zero rest (hz rfl)
  rw [if_neg h0]
  peel c = '"'
  peel c = '\\'
  repeat' split
  all_goals rw [cFamilyFix_ne c (by assumption) (by assumption)]
  · simp only [List.singleton_append, jsReader]
    rw [if_neg (by assumption), if_neg (by simp_all)]
  · exact jsEscape_hex c (by assumption) rest
  · rename_i h h'
    have := isControl_lt (c := c) (by simpa using h)
    omega

/-- The quote is escaped in templates as well; apart from the backtick and `${`
the text is as in a string. -/
theorem template_step (c : Char) (rest : Str) (hz : c = '\x00' → NoDigit rest) (hb : c ≠ '`')
    (hd : c = '$' → rest.head? ≠ some '{') :
    templateReader (escJs c ++ rest) = some (utf16 (cFamilyFix c), rest) := by
  unfold escJs
  peel c = '\x08'
  peel c = '\x12'
  peel c = '\n'
  peel c = '\r'
  peel c = '\t'
  peel c = '\x11'
  by_cases h0 : c = '\x00'
  · rw [if_pos h0]; subst h0; exact jsEscape_zero rest (hz rfl)
  rw [if_neg h0]
  peel c = '"'
  peel c = '\\'
  repeat' split
  all_goals rw [cFamilyFix_ne c (by assumption) (by assumption)]
  · simp only [List.singleton_append, templateReader]
    rw [if_neg (by assumption), if_neg (fun h => hd h.1 h.2), if_neg (by simp_all)]
  · exact jsEscape_hex c (by assumption) rest
  · rename_i h h'
    have := isControl_lt (c := c) (by simpa using h)
    omega

theorem escUtf16_ne (c : Char) : escUtf16 c ≠ [] := by
  unfold escUtf16 utf16Char
  split <;> rw [List.flatMap_cons] <;> exact List.cons_ne_nil _ _

theorem escDart_ne (c : Char) : escDart c ≠ [] := by
  unfold escDart
  refine ite_ne _ _ _ (by simp) ?_
  refine ite_ne _ _ _ (by simp) ?_
  refine ite_ne _ _ _ (by simp) ?_
  refine ite_ne _ _ _ (by simp) ?_
  refine ite_ne _ _ _ (by simp) ?_
  refine ite_ne _ _ _ (by simp) ?_
  refine ite_ne _ _ _ (by simp) ?_
  refine ite_ne _ _ _ (by simp) ?_
  refine ite_ne _ _ _ (by simp) ?_
  exact ite_ne _ _ _ (by simp) (ite_ne _ _ _ (by simp) (escUtf16_ne c))

theorem dart_step (c : Char) (rest : Str) :
    dartReader (escDart c ++ rest) = some (utf16 (cFamilyFix c), rest) := by
  unfold escDart
  peel c = '\x08'
  peel c = '\x12'
  peel c = '\n'
  peel c = '\r'
  peel c = '\t'
  peel c = '\x11'
  peel c = '"'
  peel c = '\\'
  peel c = '$'
  repeat' split
  all_goals rw [cFamilyFix_ne c (by assumption) (by assumption)]
  · simp only [List.singleton_append, dartReader]
    rw [if_neg (by assumption), if_neg (by simp_all)]
  · have hc : c.toNat < 16 ^ 2 := by omega
    rw [hexMin_eq _ _ (by omega) hc]
    show (hexExact 2 0 (hexFixed 2 c.toNat ++ rest)).map _ = _
    rw [hexExact_fixed' _ _ hc, utf16_small c (by omega)]
    rfl
  · rename_i h h'
    have := isControl_lt (c := c) (by simpa using h)
    omega

/-! ## Java -/

/-- Reading `s` up to `t` in any number of steps gives `o`. -/
inductive Reads {α : Type} (rd : Reader α) : Str → List α → Str → Prop
  | refl (s : Str) : Reads rd s [] s
  | step {s r t : Str} {o o' : List α} : s ≠ [] → rd s = some (o, r) → r.length < s.length →
      Reads rd r o' t → Reads rd s (o ++ o') t

theorem Reads.trans {α : Type} {rd : Reader α} {a b c : Str} {x y : List α}
    (h : Reads rd a x b) (h' : Reads rd b y c) : Reads rd a (x ++ y) c := by
  induction h with
  | refl => exact h'
  | step h1 h2 h3 _ ih => rw [List.append_assoc]; exact .step h1 h2 h3 (ih h')

theorem Reads.readAll {α : Type} {rd : Reader α} {s t : Str} {o : List α} (h : Reads rd s o t)
    (ht : t = []) (fuel : Nat) (hf : s.length ≤ fuel) : Spec.readAll rd fuel s = some o := by
  induction h generalizing fuel with
  | refl => subst ht; cases fuel <;> rfl
  | @step s r t o o' h1 h2 h3 _ ih =>
    cases s with
    | nil => exact absurd rfl h1
    | cons c s =>
      cases fuel with
      | zero => simp at hf
      | succ fuel =>
        rw [Spec.readAll, h2]
        simp only
        rw [ih ht fuel (by simp only [List.length_cons] at hf h3; omega)]
        rfl

theorem reads_flatMap {α : Type} {rd : Reader α} {esc : Char → Str} {out : Char → List α}
    (h : ∀ c r, Reads rd (esc c ++ r) (out c) r) (s : Str) :
    Reads rd (s.flatMap esc) (s.flatMap out) [] := by
  induction s with
  | nil => exact .refl []
  | cons c s ih => rw [List.flatMap_cons, List.flatMap_cons]; exact (h c _).trans ih

/-- The characters Java mixes up: U+0007 is written as backspace, U+0014 as form
feed. -/
def javaFix (c : Char) : Char :=
  if c = '\x07' then '\x08' else if c = '\x14' then '\x0c' else c

theorem javaFix_ne (c : Char) (h1 : c ≠ '\x07') (h2 : c ≠ '\x14') : javaFix c = c := by
  unfold javaFix; rw [if_neg h1, if_neg h2]

/-- What is left of a character after Unicode escapes are translated. -/
def javaMid (c : Char) : List Nat :=
  if c = '\t' then [92, 116]
  else if c = '\x07' then [92, 98]
  else if c = '\n' then [92, 110]
  else if c = '\r' then [92, 114]
  else if c = '\x14' then [92, 102]
  else if c = '\'' then [92, 39]
  else if c = '"' then [92, 34]
  else if c = '\\' then [92, 92]
  else utf16 c

theorem reads_two {α : Type} {rd : Reader α} {a b : Char} {x y : List α} {r : Str}
    (h1 : rd (a :: b :: r) = some (x, b :: r)) (h2 : rd (b :: r) = some (y, r)) :
    Reads rd (a :: b :: r) (x ++ y) r := by
  have := Reads.step (by simp) h1 (by simp) (.step (by simp) h2 (by simp) (.refl r))
  simpa using this

theorem reads_one {α : Type} {rd : Reader α} {a : Str} {x : List α} {r : Str} (hne : a ≠ [])
    (h1 : rd (a ++ r) = some (x, r)) : Reads rd (a ++ r) x r := by
  have hl := List.length_pos_iff.2 hne
  have := Reads.step (s := a ++ r) (by simp [hne]) h1
    (by simp only [List.length_append]; omega) (.refl r)
  simpa using this

theorem hexDigit_ne_u (d : Nat) (h : d < 16) : hexDigit d ≠ 'u' := by
  have : ∀ d : Fin 16, hexDigit d.1 ≠ 'u' := by decide
  exact this ⟨d, h⟩

theorem dropWhile_hexFixed (k n : Nat) (r : Str) (hk : 0 < k) :
    (hexFixed k n ++ r).dropWhile (· = 'u') = hexFixed k n ++ r := by
  rcases h : hexFixed k n with _ | ⟨c, t⟩
  · have := length_hexFixed k n; rw [h] at this; simp at this; omega
  · obtain ⟨d, hd, rfl⟩ := hexFixed_digits k n c (by rw [h]; simp)
    rw [List.cons_append, List.dropWhile_cons_of_neg]
    simpa using hexDigit_ne_u d hd

theorem java_unit (u : Nat) (h : u < 0x10000) (r : Str) :
    Reads javaUnicode ("\\u".toList ++ hexMin 4 u ++ r) [u] r := by
  refine reads_one (by simp) ?_
  have hc : u < 16 ^ 4 := by omega
  rw [hexMin_eq _ _ (by omega) hc]
  show (hexExact 4 0 ((hexFixed 4 u ++ r).dropWhile (· = 'u'))).map _ = _
  rw [dropWhile_hexFixed _ _ _ (by omega), hexExact_fixed' _ _ hc]
  rfl

theorem utf16Char_eq (c : Char) : utf16Char c = utf16 c := by
  unfold utf16Char utf16
  by_cases h : c.toNat < 0x10000
  · rw [if_pos h, if_pos (by omega)]
  · rw [if_neg h, if_neg (by omega)]

theorem utf16_lt (c : Char) : ∀ u ∈ utf16 c, u < 0x10000 := by
  have := toNat_lt c
  unfold utf16
  split <;> simp only [List.mem_cons, List.not_mem_nil, or_false] <;> intro u hu
  · omega
  · rcases hu with hu | hu <;> omega

theorem java_units (us : List Nat) (h : ∀ u ∈ us, u < 0x10000) (r : Str) :
    Reads javaUnicode (us.flatMap (fun u => "\\u".toList ++ hexMin 4 u) ++ r) us r := by
  induction us with
  | nil => exact .refl r
  | cons u us ih =>
    rw [List.flatMap_cons, List.append_assoc]
    exact (java_unit u (h u (by simp)) _).trans (ih fun v hv => h v (by simp [hv]))

theorem java_reads (c : Char) (r : Str) : Reads javaUnicode (escJava c ++ r) (javaMid c) r := by
  unfold escJava javaMid
  by_cases h : c = '\t'
  · rw [if_pos h, if_pos h]
    exact reads_two (rd := javaUnicode) (a := '\\') (b := 't') (x := [92]) (r := r) rfl rfl
  rw [if_neg h, if_neg h]
  by_cases h : c = '\x07'
  · rw [if_pos h, if_pos h]
    exact reads_two (rd := javaUnicode) (a := '\\') (b := 'b') (x := [92]) (r := r) rfl rfl
  rw [if_neg h, if_neg h]
  by_cases h : c = '\n'
  · rw [if_pos h, if_pos h]
    exact reads_two (rd := javaUnicode) (a := '\\') (b := 'n') (x := [92]) (r := r) rfl rfl
  rw [if_neg h, if_neg h]
  by_cases h : c = '\r'
  · rw [if_pos h, if_pos h]
    exact reads_two (rd := javaUnicode) (a := '\\') (b := 'r') (x := [92]) (r := r) rfl rfl
  rw [if_neg h, if_neg h]
  by_cases h : c = '\x14'
  · rw [if_pos h, if_pos h]
    exact reads_two (rd := javaUnicode) (a := '\\') (b := 'f') (x := [92]) (r := r) rfl rfl
  rw [if_neg h, if_neg h]
  by_cases h : c = '\''
  · rw [if_pos h, if_pos h]
    exact reads_two (rd := javaUnicode) (a := '\\') (b := '\'') (x := [92]) (r := r) rfl rfl
  rw [if_neg h, if_neg h]
  by_cases h : c = '"'
  · rw [if_pos h, if_pos h]
    exact reads_two (rd := javaUnicode) (a := '\\') (b := '"') (x := [92]) (r := r) rfl rfl
  rw [if_neg h, if_neg h]
  by_cases hb : c = '\\'
  · rw [if_pos hb, if_pos hb]; exact reads_one (a := ['\\', '\\']) (by simp) rfl
  rw [if_neg hb, if_neg hb]
  by_cases h : c = ' '
  · rw [if_pos h]; subst h; exact reads_one (a := [' ']) (by simp) rfl
  rw [if_neg h]
  split
  · refine reads_one (a := [c]) (by simp) ?_
    simp only [List.singleton_append, javaUnicode]
    rw [if_neg hb]
  · unfold escUtf16
    rw [utf16Char_eq]
    exact java_units _ (utf16_lt c) r

theorem javaEscapes_unit (u : Nat) (r : List Nat) (h : u ≠ 92 ∧ u ≠ 34 ∧ u ≠ 10 ∧ u ≠ 13) :
    javaEscapes (u :: r) = (javaEscapes r).map (u :: ·) := by
  rw [javaEscapes.eq_def]
  split
  · rename_i heq; simp at heq
  · rename_i heq; simp only [List.cons.injEq] at heq; exact absurd heq.1 h.1
  · rename_i heq
    simp only [List.cons.injEq] at heq
    obtain ⟨rfl, rfl⟩ := heq
    rw [if_neg (by simp [h])]

theorem javaEscapes_units (us r : List Nat)
    (h : ∀ u ∈ us, u ≠ 92 ∧ u ≠ 34 ∧ u ≠ 10 ∧ u ≠ 13) :
    javaEscapes (us ++ r) = (javaEscapes r).map (us ++ ·) := by
  induction us with
  | nil => simp
  | cons u us ih =>
    rw [List.cons_append, javaEscapes_unit u _ (h u (by simp)),
      ih fun v hv => h v (by simp [hv])]
    simp [Option.map_map, Function.comp_def]

theorem toNat_ne {c : Char} {n : Nat} {d : Char} (hd : d.toNat = n) (h : c ≠ d) : c.toNat ≠ n := by
  intro h'
  exact h (Char.toNat_inj.1 (h'.trans hd.symm))

theorem utf16_no {c : Char} (n : Nat) (hn : n < 0xd800) (h : c.toNat ≠ n) : n ∉ utf16 c := by
  have := toNat_lt c
  unfold utf16
  split <;> simp only [List.mem_cons, List.not_mem_nil, or_false]
  · omega
  · omega

theorem java_mid (c : Char) (r : List Nat) :
    javaEscapes (javaMid c ++ r) = (javaEscapes r).map (utf16 (javaFix c) ++ ·) := by
  unfold javaMid
  peel c = '\t'
  peel c = '\x07'
  peel c = '\n'
  peel c = '\r'
  peel c = '\x14'
  peel c = '\''
  peel c = '"'
  peel c = '\\'
  rw [javaFix_ne c (by assumption) (by assumption)]
  apply javaEscapes_units
  intro u hu
  refine ⟨?_, ?_, ?_, ?_⟩ <;> rintro rfl
  · exact utf16_no (c := c) 92 (by omega) (toNat_ne (d := '\\') rfl (by assumption)) hu
  · exact utf16_no (c := c) 34 (by omega) (toNat_ne (d := '"') rfl (by assumption)) hu
  · exact utf16_no (c := c) 10 (by omega) (toNat_ne (d := '\n') rfl (by assumption)) hu
  · exact utf16_no (c := c) 13 (by omega) (toNat_ne (d := '\r') rfl (by assumption)) hu

theorem java_decode (s : Str) :
    javaDecode (s.flatMap escJava) = some (s.flatMap fun c => utf16 (javaFix c)) := by
  unfold javaDecode decode
  rw [(reads_flatMap java_reads s).readAll rfl _ (Nat.le_refl _), Option.bind_some]
  induction s with
  | nil => rfl
  | cons c s ih => rw [List.flatMap_cons, java_mid, ih]; rfl

/-! ## What can follow -/

/-- The first character written for `c` is a backslash or `c`. -/
def HeadOk (esc : Char → Str) : Prop := ∀ c, (esc c).head? = some '\\' ∨ (esc c).head? = some c

theorem head_ite {p : Prop} [Decidable p] {a b : Str} {c : Char}
    (h1 : p → a.head? = some '\\' ∨ a.head? = some c)
    (h2 : b.head? = some '\\' ∨ b.head? = some c) :
    (if p then a else b).head? = some '\\' ∨ (if p then a else b).head? = some c := by
  split
  · exact h1 ‹_›
  · exact h2

theorem escCFamily_head : HeadOk escCFamily := by
  intro c
  unfold escCFamily
  iterate 10 refine head_ite (fun _ => .inl rfl) ?_
  refine head_ite (fun h => .inr (by rw [h]; rfl)) ?_
  exact head_ite (fun _ => head_ite (fun _ => .inr rfl) (.inl rfl)) (head_ite (fun _ => .inl rfl) (.inl rfl))

theorem escJs_head : HeadOk escJs := by
  intro c
  unfold escJs
  iterate 9 refine head_ite (fun _ => .inl rfl) ?_
  exact head_ite (fun _ => .inr rfl) (head_ite (fun _ => .inl rfl) (.inl rfl))

theorem head_flatMap {esc : Char → Str} (hne : ∀ c, esc c ≠ []) (h : HeadOk esc) (s : Str) (c : Char)
    (hc : (s.flatMap esc).head? = some c) : c = '\\' ∨ s.head? = some c := by
  cases s with
  | nil => simp at hc
  | cons d s =>
    rw [List.flatMap_cons] at hc
    rcases he : esc d with _ | ⟨x, t⟩
    · exact absurd he (hne d)
    · have := h d
      rw [he] at hc this
      simp only [List.cons_append, List.head?_cons, Option.some.injEq] at hc this ⊢
      rcases this with h | h
      · exact .inl (hc.symm.trans h)
      · exact .inr (h.symm.trans hc)

theorem noHex_flatMap (s p r : Str) (c : Char) (h : ControlsApart s) (hs : s = p ++ c :: r)
    (hc : hexed c = true) : NoHex (r.flatMap escCFamily) := by
  intro d hd
  rcases head_flatMap escCFamily_ne escCFamily_head r d hd with rfl | h'
  · rfl
  · cases r with
    | nil => simp at h'
    | cons x r =>
      simp only [List.head?_cons, Option.some.injEq] at h'
      exact h p c d r (by rw [hs, h']) hc

theorem noDigit_flatMap (s p r : Str) (h : NulsApart s) (hs : s = p ++ '\x00' :: r) :
    NoDigit (r.flatMap escJs) := by
  intro d hd
  rcases head_flatMap escJs_ne escJs_head r d hd with rfl | h'
  · decide
  · cases r with
    | nil => simp at h'
    | cons x r =>
      simp only [List.head?_cons, Option.some.injEq] at h'
      exact h p d r (by rw [hs, h'])

/-! ## Nix -/

/-- Characters that survive in Nix: printable ASCII, line feed, carriage return
and tab. -/
def nixSafe (c : Char) : Bool :=
  (32 ≤ c.toNat && c.toNat < 127) || c = '\n' || c = '\r' || c = '\t'

theorem nix_step (c : Char) (rest : Str) (hc : nixSafe c = true) (hd : c ≠ '$') :
    nixReader (escCFamily c ++ rest) = some (bytes c, rest) := by
  unfold escCFamily
  by_cases h : c = '\x07'
  · subst h; exact absurd hc (by decide)
  rw [if_neg h]
  by_cases h : c = '\x08'
  · subst h; exact absurd hc (by decide)
  rw [if_neg h]
  by_cases h : c = '\x12'
  · subst h; exact absurd hc (by decide)
  rw [if_neg h]
  peel c = '\n'
  peel c = '\r'
  peel c = '\t'
  by_cases h : c = '\x11'
  · subst h; exact absurd hc (by decide)
  rw [if_neg h]
  peel c = '\''
  peel c = '"'
  peel c = '\\'
  peel c = ' '
  have hr : 32 ≤ c.toNat ∧ c.toNat < 127 := by simpa [nixSafe, *] using hc
  have h1 : isAscii c = true := by simp [isAscii]; omega
  have h2 : isControl c = false := by simp [isControl]; omega
  simp only [h1, h2, if_true, Bool.not_false, List.singleton_append]
  unfold nixReader
  simp only
  rw [if_neg (by assumption), if_neg hd, if_neg (by assumption)]

theorem nix_dollar (rest : Str) : escCFamily '$' ++ rest = '$' :: rest := rfl

theorem nix_reads (n : Nat) (s : Str) (hn : s.length ≤ n) (hs : ∀ c ∈ s, nixSafe c = true)
    (hd : ∀ p r, s ≠ p ++ '$' :: '{' :: r) :
    Reads nixReader (s.flatMap escCFamily) (s.flatMap bytes) [] := by
  induction n generalizing s with
  | zero =>
    have : s = [] := by simpa using hn
    subst this
    exact .refl []
  | succ n ih =>
    cases s with
    | nil => exact .refl []
    | cons c s =>
      simp only [List.length_cons] at hn
      have hs' : ∀ c ∈ s, nixSafe c = true := fun d h => hs d (by simp [h])
      have hd' : ∀ p r, s ≠ p ++ '$' :: '{' :: r := fun p r h => hd (c :: p) r (by rw [h]; rfl)
      rw [List.flatMap_cons, List.flatMap_cons]
      by_cases hc : c = '$'
      · subst hc
        cases s with
        | nil =>
          exact reads_one (rd := nixReader) (a := ['$']) (r := []) (x := [36]) (by simp) rfl
        | cons e s =>
          by_cases he : e = '$'
          · subst he
            have h := reads_one (rd := nixReader) (a := ['$', '$']) (r := s.flatMap escCFamily)
              (x := [36, 36]) (by simp) rfl
            have := h.trans (ih s (by simp only [List.length_cons] at hn; omega) (fun d h => hs' d (by simp [h]))
              (fun p r h => hd' ('$' :: p) r (by rw [h]; rfl)))
            exact this
          · have he' : e ≠ '{' := by
              intro h; exact hd [] s (by rw [h]; rfl)
            have h1 : nixReader ('$' :: (e :: s).flatMap escCFamily) =
                some ([36], (e :: s).flatMap escCFamily) := by
              rcases hx : (e :: s).flatMap escCFamily with _ | ⟨x, t⟩
              · rfl
              · have hx' := head_flatMap escCFamily_ne escCFamily_head (e :: s) x (by rw [hx]; rfl)
                have hx1 : x ≠ '{' := by
                  rcases hx' with h | h
                  · rw [h]; decide
                  · simp only [List.head?_cons, Option.some.injEq] at h; rw [← h]; exact he'
                have hx2 : x ≠ '$' := by
                  rcases hx' with h | h
                  · rw [h]; decide
                  · simp only [List.head?_cons, Option.some.injEq] at h; rw [← h]; exact he
                show (if x = '{' then none else if x = '$' then _ else _) = _
                rw [if_neg hx1, if_neg hx2]
            have h2 := reads_one (rd := nixReader) (a := ['$']) (r := (e :: s).flatMap escCFamily)
              (x := [36]) (by simp) h1
            exact h2.trans (ih _ (by omega) hs' hd')
      · exact (reads_one (escCFamily_ne c) (nix_step c _ (hs c (by simp)) hc)).trans
          (ih _ (by omega) hs' hd')

/-! ## Delimiters -/

/-- A piece of a literal that a lexer skips over whole. -/
def Skipped (t : Str) : Prop := ∀ r, closeAt (t ++ r) = (closeAt r).map fun (a, b) => (t ++ a, b)

theorem Skipped.append {a b : Str} (ha : Skipped a) (hb : Skipped b) : Skipped (a ++ b) := by
  intro r
  rw [List.append_assoc, ha, hb]
  cases closeAt r <;> simp

theorem Skipped.nil : Skipped [] := by
  intro r
  rw [List.nil_append]
  cases closeAt r <;> simp

theorem Skipped.char {c : Char} (h1 : c ≠ '"') (h2 : c ≠ '\n') (h3 : c ≠ '\r') (h4 : c ≠ '\\') :
    Skipped [c] := by
  intro r
  rw [List.singleton_append, closeAt.eq_def]
  simp only
  rw [if_neg h1, if_neg (by simp [h2, h3]), if_neg h4]
  cases closeAt r <;> simp

theorem Skipped.pair {c : Char} (h2 : c ≠ '\n') (h3 : c ≠ '\r') : Skipped ['\\', c] := by
  intro r
  show closeAt ('\\' :: c :: r) = _
  rw [closeAt.eq_def]
  simp only
  rw [if_neg (by decide), if_neg (by decide), if_pos trivial, if_neg (by simp [h2, h3])]
  cases closeAt r <;> simp

theorem Skipped.hex (k n : Nat) : Skipped (hexFixed k n) := by
  induction k generalizing n with
  | zero => exact .nil
  | succ k ih =>
    have h : ∀ d : Fin 16, hexDigit d.1 ≠ '"' ∧ hexDigit d.1 ≠ '\n' ∧ hexDigit d.1 ≠ '\r' ∧
      hexDigit d.1 ≠ '\\' := by decide
    obtain ⟨h1, h2, h3, h4⟩ := h ⟨n % 16, Nat.mod_lt _ (by omega)⟩
    exact (ih _).append (.char h1 h2 h3 h4)

theorem Skipped.hexMin (k n : Nat) : Skipped (hexMin k n) := .hex _ _

theorem Skipped.ite {p : Prop} [Decidable p] {a b : Str} (h1 : p → Skipped a) (h2 : ¬ p → Skipped b) :
    Skipped (if p then a else b) := by
  split
  · exact h1 ‹_›
  · exact h2 ‹_›

theorem Skipped.flatMap {α : Type} {f : α → Str} (h : ∀ a, Skipped (f a)) (l : List α) :
    Skipped (l.flatMap f) := by
  induction l with
  | nil => exact .nil
  | cons a l ih => rw [List.flatMap_cons]; exact (h a).append ih

theorem Skipped.braced (k n : Nat) : Skipped ("\\u{".toList ++ Genco.hexMin k n ++ ['}']) :=
  ((Skipped.pair (c := 'u') (by decide) (by decide)).append
    (.char (c := '{') (by decide) (by decide) (by decide) (by decide))).append (.hexMin _ _) |>.append
    (.char (by decide) (by decide) (by decide) (by decide))

theorem Skipped.x (k n : Nat) : Skipped ("\\x".toList ++ Genco.hexMin k n) :=
  (Skipped.pair (c := 'x') (by decide) (by decide)).append (.hexMin _ _)

theorem Skipped.u (k n : Nat) : Skipped ("\\u".toList ++ Genco.hexMin k n) :=
  (Skipped.pair (c := 'u') (by decide) (by decide)).append (.hexMin _ _)

theorem Skipped.U (k n : Nat) : Skipped ("\\U".toList ++ Genco.hexMin k n) :=
  (Skipped.pair (c := 'U') (by decide) (by decide)).append (.hexMin _ _)

theorem Skipped.utf16 (c : Char) : Skipped (escUtf16 c) := .flatMap (fun _ => .u _ _) _

/-- Take a branch with a two-character escape off a chain. -/
local macro "esc1" : tactic =>
  `(tactic| refine Skipped.ite (fun _ => Skipped.pair (by decide) (by decide)) (fun _ => ?_))

theorem skipped_cFamily (c : Char) : Skipped (escCFamily c) := by
  unfold escCFamily
  iterate 10 esc1
  refine .ite (fun _ => .char (by decide) (by decide) (by decide) (by decide)) (fun _ => ?_)
  exact .ite (fun _ => .ite (fun _ => .char ‹_› ‹_› ‹_› ‹_›) (fun _ => .x _ _))
    (fun _ => .ite (fun _ => .u _ _) (fun _ => .U _ _))

theorem skipped_rust (c : Char) : Skipped (escRust c) := by
  unfold escRust
  iterate 6 esc1
  exact .ite (fun _ => .char ‹_› ‹_› ‹_› ‹_›) (fun _ => .ite (fun _ => .x _ _) (fun _ => .braced _ _))

theorem skipped_swift (c : Char) : Skipped (escSwift c) := by
  unfold escSwift
  iterate 7 esc1
  exact .ite (fun _ => .char ‹_› ‹_› ‹_› ‹_›) (fun _ => .braced _ _)

theorem skipped_js (c : Char) : Skipped (escJs c) := by
  unfold escJs
  iterate 9 esc1
  exact .ite (fun _ => .char ‹_› ‹_› ‹_› ‹_›) (fun _ => .ite (fun _ => .x _ _) (fun _ => .braced _ _))

theorem skipped_dart (c : Char) : Skipped (escDart c) := by
  unfold escDart
  iterate 9 esc1
  exact .ite (fun _ => .char ‹_› ‹_› ‹_› ‹_›) (fun _ => .ite (fun _ => .x _ _) (fun _ => .utf16 _))

theorem skipped_java (c : Char) : Skipped (escJava c) := by
  unfold escJava
  iterate 8 esc1
  refine .ite (fun _ => .char (by decide) (by decide) (by decide) (by decide)) (fun _ => ?_)
  exact .ite (fun _ => .char ‹_› ‹_› ‹_› ‹_›) (fun _ => .utf16 _)

theorem closeAt_quote (r : Str) : closeAt ('"' :: r) = some ([], r) := by
  rw [closeAt.eq_def]; rfl

theorem closeAt_skipped {t : Str} (h : Skipped t) (r : Str) : closeAt (t ++ '"' :: r) = some (t, r) := by
  rw [h, closeAt_quote]; simp

end Genco
