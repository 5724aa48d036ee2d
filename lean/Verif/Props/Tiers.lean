import Verif.Proofs.Tiers
import Verif.Props.Wrap

/-!
# The 16-bit counters in streams with strings (C08, C86)
-/

set_option autoImplicit false

namespace Genco.Props

open Genco Spec Tokens

variable {ι : Type}

/-- C08. Exactly when formatting any items overflows: if one of the levels of indentation that are
reached is outside of 16 bits. A string quoted inside a string has a level of its own. Items behind
the first illegal mark of a string are not reached. -/
theorem C08_any_stream (L : Lang ι) (cfg : Config) (items : List (Item ι)) (o : Str) :
    formatItemsC L cfg stringWriter items (Fmt.new o) =
      if (streamLevels items).all fits16 then some (formatItems L cfg stringWriter items (Fmt.new o)) else none :=
  fits16_eq ▸ streamLevels_C L cfg items o

/- Neither the text nor the string inside the string is indented too far: their levels do not add up. -/
example : streamLevels (ι := Nat) [.indentation 20000, .openQuote false, lit "a", .openQuote false, .indentation 20000,
      lit "b", .closeQuote, lit "c", .closeQuote, .indentation 12767] =
    [20000, 20000, 20000, 0, 20000, 20000, 20000, 20000, 20000, 32767] := by decide

/- An evaluation has no level of its own. -/
example : streamLevels (ι := Nat) [.openQuote true, .indentation 20000, .openEval, .indentation 20000, lit "b"] =
    [0, 20000, 20000, 40000, 40000] := by decide

/- What follows an illegal mark is not formatted. -/
example : streamLevels (ι := Nat) [.indentation 1, .closeQuote, .indentation 40000] = [1] := by decide

/-- C86. Any history is rendered as with unbounded counters as long as the levels of indentation
that its stream reaches stay within 16 bits, and it is rejected where that one is. This is so even
where the counter of a stretch of white space wraps around on the way. -/
theorem C86_renders_any (cs : List (Call ι)) (h : ∀ i ∈ cs.flatMap callItems, fits16 (indOf i) = true)
    (hl : (streamLevels (history cs).items).all fits16 = true) (L : Lang ι) (cfg : Config) :
    toStringW L cfg (historyW cs).items = toString L cfg (history cs).items := by
  rw [fits16_eq] at h hl
  have hz : ∀ i ∈ (history cs).items, nz i = true := by
    intro i hi
    have := (C01_normal_form cs).2
    cases i with
    | indentation n =>
      simp only [nz, ne_eq, decide_eq_true_eq]
      intro h0
      subst h0
      exact this hi
    | _ => rfl
  have h1 := streamLevels_C L cfg (history cs).items []
  rw [if_pos hl] at h1
  have h2 := cursorW_narrow L cfg (history cs).items.length (historyW cs).items.length false [Frame.default]
    (history cs).items (historyW cs).items (Fmt.new []) (Nat.le_refl _) (Nat.le_refl _) hz (historyW_narrow cs h) rfl rfl
  unfold toStringW toString formatItemsW
  unfold formatItemsC at h1
  revert h1 h2
  cases formatCursorC L cfg (history cs).items.length stringWriter false [Frame.default] (history cs).items
    (Fmt.new []) with
  | none => intro h1; simp at h1
  | some x =>
    cases x with
    | error g =>
      intro h1 h2
      rw [show _ = _ from h2, ← Option.some.inj h1]
    | ok p =>
      obtain ⟨g, r⟩ := p
      intro h1 h2
      obtain ⟨r', h2, -⟩ := h2
      rw [h2, ← Option.some.inj h1]

/- The counter of one stretch goes up to 40000 and back to 5, inside a string. -/
example : historyW (ι := Nat) [.stream [.openQuote false, lit "a", .indentation 20000], .stream [.indentation 20000],
      .stream [.indentation (-20000)], .stream [.indentation (-19995), lit "b", .closeQuote]] =
      ⟨[.closeQuote, lit "b", .indentation 5, lit "a", .openQuote false], 0⟩ ∧
    streamLevels (history (ι := Nat) [.stream [.openQuote false, lit "a", .indentation 20000],
      .stream [.indentation 20000], .stream [.indentation (-20000)],
      .stream [.indentation (-19995), lit "b", .closeQuote]]).items = [0, 0, 5, 5, 5] := by decide

end Genco.Props
