import Verif.Proofs.Fake

/-!
# Positions from span texts
-/

set_option autoImplicit false

namespace Genco.Props

open Macro Spec.SpanText

/-- C59. The positions in the debug text of a span are read back. -/
theorem C59_round_trip (max : Nat) (p : Str) (hp : '(' ∉ p) (a b : Nat) (ha : a ≤ max) (hb : b ≤ max) :
    findLineColumn max (p ++ '(' :: decimal a ++ "..".toList ++ decimal b ++ [')']) = some (a, b) :=
  (findLineColumn_iff max _ a b).2
    ⟨p, _, _, _, hp, by decide, rfl, .inl (decimal_digits a), .inl (decimal_digits b), ha, hb⟩

/-- C59. Exactly the texts with a range of two numbers behind the first parenthesis, up to
one last character of a byte, are read. -/
theorem C59_range_form (max : Nat) (text : Str) (a b : Nat) : findLineColumn max text = some (a, b) ↔
    ∃ p x y c, '(' ∉ p ∧ c.utf8Size = 1 ∧ text = p ++ '(' :: x ++ "..".toList ++ y ++ [c] ∧
      Numeral x a ∧ Numeral y b ∧ a ≤ max ∧ b ≤ max :=
  findLineColumn_iff max text a b

/-- C59. Texts without parenthesis or without two dots are rejected. -/
theorem C59_rejected (max : Nat) (text : Str) (h : '(' ∉ text ∨ ¬ "..".toList <:+: text) :
    findLineColumn max text = none := by
  cases hf : findLineColumn max text with
  | none => rfl
  | some v =>
    obtain ⟨a, b⟩ := v
    obtain ⟨p, x, y, c, -, -, rfl, -⟩ := (findLineColumn_iff max text a b).1 hf
    exfalso
    rcases h with h | h
    · exact h (by simp)
    · exact h ⟨p ++ '(' :: x, y ++ [c], by simp⟩

/-- C59. The number that is read is the only one the digits stand for. -/
theorem C59_unique (s : Str) (a b : Nat) (ha : Numeral s a) (hb : Numeral s b) : a = b := by
  have h1 := (parseUsize_iff (a + b) s a).2 ⟨ha, by omega⟩
  have h2 := (parseUsize_iff (a + b) s b).2 ⟨hb, by omega⟩
  rw [h1] at h2
  exact Option.some.inj h2

example : findLineColumn (2 ^ 64 - 1) "#5 bytes(120..1337)".toList = some (120, 1337) := by decide +kernel
example : findLineColumn (2 ^ 64 - 1) "#5 bytes(120..)".toList = none := by decide +kernel
example : findLineColumn (2 ^ 64 - 1) "bytes(1..99999999999999999999)".toList = none := by decide +kernel
example : findLineColumn (2 ^ 64 - 1) "Span".toList = none := by decide +kernel
example : decimal 120 = "120".toList := by simp [decimal]

/-- The text of a span with offsets, as the pattern of `C59_range_form` has it. -/
def SpanText (max : Nat) (text : Str) (a b : Nat) : Prop :=
  ∃ p x y c, '(' ∉ p ∧ c.utf8Size = 1 ∧ text = p ++ '(' :: x ++ "..".toList ++ y ++ [c] ∧
    Numeral x a ∧ Numeral y b ∧ a ≤ max ∧ b ≤ max

/-- C59. A span is a place on line 1 from its first to its second offset. -/
theorem C59_cursor (max : Nat) (text : Str) (c : Cur) : compatCursor max text = some c ↔
    ∃ a b, SpanText max text a b ∧ c = ⟨⟨1, a⟩, ⟨1, b⟩⟩ := by
  simp only [compatCursor, Option.bind_eq_bind, Option.bind_eq_some_iff, Prod.exists, Option.some.injEq]
  exact exists_congr fun a => exists_congr fun b => and_congr (findLineColumn_iff max text a b) eq_comm

/-- C59. Two spans are joined to a place on line 1 from the first offset of one to the second of the other. -/
theorem C59_join (max : Nat) (first second : Str) (c : Cur) : compatJoin max first second = some c ↔
    ∃ a b a' b', SpanText max first a b ∧ SpanText max second a' b' ∧ c = ⟨⟨1, a⟩, ⟨1, b'⟩⟩ := by
  simp only [compatJoin, Option.bind_eq_bind, Option.bind_eq_some_iff, Prod.exists, Option.some.injEq]
  constructor
  · rintro ⟨a, b, h, a', b', h', rfl⟩
    exact ⟨a, b, a', b', (findLineColumn_iff ..).1 h, (findLineColumn_iff ..).1 h', rfl⟩
  · rintro ⟨a, b, a', b', h, h', rfl⟩
    exact ⟨a, b, (findLineColumn_iff ..).2 h, a', b', (findLineColumn_iff ..).2 h', rfl⟩

example : compatJoin (2 ^ 64 - 1) "#5 bytes(120..133)".toList "#5 bytes(140..150)".toList = some ⟨⟨1, 120⟩, ⟨1, 150⟩⟩ := by
  decide +kernel

end Genco.Props
