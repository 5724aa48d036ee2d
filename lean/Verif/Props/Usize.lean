import Verif.Proofs.Usize
import Verif.Spec.Usize
import Verif.Props.Layout

/-!
# Widths are counted in a `usize` (C93)
-/

set_option autoImplicit false

namespace Genco.Props

open Genco Spec Tokens

variable {ι σ : Type}

/-- C93. No stream, with strings or without, on no writer, overflows a `usize` with largest value `M`
if `M` is at least the number of items and the width of all indentation taken together. This is so for
debug builds, which would panic, and for release builds, which would wrap around. -/
theorem C93_bound (M : Nat) (L : Lang ι) (cfg : Config) (W : Writer σ) (items : List (Item ι)) (o : σ)
    (h : items.length + indTotal items * perLevel cfg ≤ M) :
    formatItemsA (.checked M) L cfg W items (Fmt.new o) = some (formatItems L cfg W items (Fmt.new o)) ∧
    formatItemsA (.wrapping M) L cfg W items (Fmt.new o) = some (formatItems L cfg W items (Fmt.new o)) := by
  have hn : need cfg.unit (Fmt.new o) items ≤ M := by
    simp only [need, Fmt.new]
    have e : cfg.unit = perLevel cfg := rfl
    have w : weight items = indTotal items := rfl
    rw [e, w]
    simpa using h
  exact ⟨formatItemsA_eq (agrees_checked M) L cfg W items _ hn, formatItemsA_eq (agrees_wrapping M) L cfg W items _ hn⟩

theorem mapM_none {α β : Type} (f : α → Option β) (l : List α) (a : α) (ha : a ∈ l) (h : f a = none) :
    l.mapM f = none := by
  induction l with
  | nil => simp at ha
  | cons b l ih =>
    rw [List.mapM_cons]
    rcases List.mem_cons.mp ha with rfl | ha
    · rw [h]; rfl
    · rw [ih ha]
      cases f b <;> rfl

theorem mapM_some {α β : Type} (f : α → Option β) (g : α → β) (l : List α) (h : ∀ a ∈ l, f a = some (g a)) :
    l.mapM f = some (l.map g) := by
  induction l with
  | nil => rfl
  | cons b l ih =>
    rw [List.mapM_cons, h b (by simp), ih (fun a ha => h a (by simp [ha]))]
    rfl

theorem drawn_checked (M : Nat) (cfg : Config) (p : Piece) :
    drawn (.checked M) cfg p =
      if (∃ w, p.indented cfg = some w ∧ M < w) then none else some (p.render cfg) := by
  unfold drawn Piece.indented Piece.render
  cases p.margin with
  | none => simp
  | some l =>
    cases hc : cfg.indentation with
    | tab => simp
    | space n =>
      simp only [Arith.checked, Option.some.injEq, exists_eq_left']
      by_cases h : M < l * n + p.seps
      · rw [if_pos h]
        by_cases h1 : l * n ≤ M
        · rw [if_pos h1, Option.bind_some, if_neg (by omega)]
          rfl
        · rw [if_neg h1]
          rfl
      · rw [if_neg h, if_pos (by omega), Option.bind_some, if_pos (by omega)]
        simp [lineStart, marginText, hc, ← List.replicate_append_replicate, Nat.add_comm p.seps]

theorem drawn_wrapping (M : Nat) (cfg : Config) (p : Piece) :
    drawn (.wrapping M) cfg p = some (p.wrapped M cfg) := by
  unfold drawn Piece.wrapped Piece.indented
  cases p.margin with
  | none => rfl
  | some l =>
    cases cfg.indentation with
    | tab => rfl
    | space n => simp [Arith.wrapping, Nat.add_comm]

/-- C93. Exactly when a debug build panics, for items without strings: if some line starts behind more
spaces than `usize` can count. The number of items can be counted, as they are in memory. -/
theorem C93_checked (M : Nat) (L : Lang ι) (cfg : Config) (items : List (Item ι))
    (hp : ∀ i ∈ items, isPlain i = true) (hM : items.length ≤ M) :
    (toStringA (.checked M) L cfg items = none ↔
      ∃ p ∈ pieces (items.flatMap (plainActs L.langItem)), ∃ w, p.indented cfg = some w ∧ M < w) ∧
    (toStringA (.checked M) L cfg items ≠ none →
      toStringA (.checked M) L cfg items = some (toString L cfg items)) := by
  have h := formatItemsA_plain (.checked M) M (fun a ha => if_pos ha) L cfg items hp hM
  rw [toStringA, h]
  by_cases hw : ∃ p ∈ pieces (items.flatMap (plainActs L.langItem)), ∃ w, p.indented cfg = some w ∧ M < w
  · obtain ⟨p, h1, h2⟩ := hw
    have : (pieces (items.flatMap (plainActs L.langItem))).mapM (drawn (.checked M) cfg) = none :=
      mapM_none _ _ p h1 (by rw [drawn_checked, if_pos h2])
    rw [this]
    exact ⟨⟨fun _ => ⟨p, h1, h2⟩, fun _ => rfl⟩, fun h => absurd rfl h⟩
  · have : (pieces (items.flatMap (plainActs L.langItem))).mapM (drawn (.checked M) cfg) =
        some ((pieces (items.flatMap (plainActs L.langItem))).map (Piece.render cfg)) :=
      mapM_some _ _ _ (fun p h1 => by rw [drawn_checked, if_neg (fun h2 => hw ⟨p, h1, h2⟩)])
    rw [this]
    refine ⟨⟨fun h => by simp at h, fun h => absurd h hw⟩, fun _ => ?_⟩
    rw [C13_layout L cfg items hp]
    rfl

/-- C93. What a release build writes then: every line starts behind the number of spaces that is left
if counting starts again behind the largest value. -/
theorem C93_wrapping (M : Nat) (L : Lang ι) (cfg : Config) (items : List (Item ι))
    (hp : ∀ i ∈ items, isPlain i = true) (hM : items.length ≤ M) :
    toStringA (.wrapping M) L cfg items =
      some (some ((pieces (items.flatMap (plainActs L.langItem))).flatMap (Piece.wrapped M cfg))) := by
  have h := formatItemsA_plain (.wrapping M) M
    (fun a ha => congrArg some (Nat.mod_eq_of_lt (Nat.lt_succ_of_le ha))) L cfg items hp hM
  rw [toStringA, h, mapM_some _ _ _ (fun p _ => drawn_wrapping M cfg p)]
  rfl

/-- C93. A line can ask for more: two levels of 2⁶³ spaces. A debug build panics; a release build writes
the line without indentation. -/
theorem C93_witness :
    toStringA (.checked (2 ^ 64 - 1)) plain ⟨.space (2 ^ 63), ['\n']⟩ [.indentation 2, lit "a"] = none ∧
    toStringA (.wrapping (2 ^ 64 - 1)) plain ⟨.space (2 ^ 63), ['\n']⟩ [.indentation 2, lit "a"] =
      some (some "a".toList) := by
  decide +kernel

/-- With 16 bits, 16384 levels of four spaces are too many, although the level can be counted. -/
example : toStringA (.checked (2 ^ 16 - 1)) plain ⟨.space 4, ['\n']⟩ [.indentation 16384, lit "a"] = none ∧
    inI16 16384 = true := by
  decide +kernel

/-- A stream with a string that meets the bound for 8 bits, and its items. -/
example : (7 : Nat) + indTotal (ι := Str) [lit "f", .indentation 3, .openQuote false, lit "a", .closeQuote, .space, lit "b"] *
    perLevel cfg2 ≤ 2 ^ 8 - 1 := by
  decide +kernel

example : toStringA (.checked (2 ^ 8 - 1)) plain cfg2 [lit "f", .indentation 3, lit "a", .push, .space, lit "b"] =
    some (some "f\n      a\n       b".toList) ∧
    (pieces ([lit "f", .indentation 3, lit "a", .push, .space, lit "b"].flatMap (plainActs plain.langItem))).map
      (Piece.indented cfg2) = [some 0, some 6, some 7] := by
  decide +kernel

/-- Counting to 6 only, the last line starts again behind no space. -/
example : toStringA (.wrapping 6) plain cfg2 [lit "f", .indentation 3, lit "a", .push, .space, lit "b"] =
    some (some "f\n      a\nb".toList) ∧
    toStringA (.checked 6) plain cfg2 [lit "f", .indentation 3, lit "a", .push, .space, lit "b"] = none ∧
    toStringA (.checked 7) plain cfg2 [lit "f", .indentation 3, lit "a", .push, .space, lit "b"] ≠ none := by
  decide +kernel

end Genco.Props
