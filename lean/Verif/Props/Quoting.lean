import Verif.Proofs.Register
import Verif.Proofs.Lines
import Verif.Props.Writers

/-!
# Properties of quoting (C18, C19, C23)
-/

set_option autoImplicit false

namespace Genco.Props

open Genco Spec

variable {ι : Type}

/-- C18. For languages that treat a single interpolated literal like any other
interpolation (all built-in ones but Dart), deleting every registration from any
stream changes neither the text nor the lines nor the success of formatting. -/
theorem C18_register_invisible_partial (L : Lang ι)
    (hD : ∀ s, L.evalLiteral s = L.startEval ++ [s] ++ L.endEval)
    (cfg : Config) (items : List (Item ι)) :
    toString L cfg (items.filter (fun i => match i with | .register _ _ => false | _ => true)) =
      toString L cfg items ∧
    toVec L cfg (items.filter (fun i => match i with | .register _ _ => false | _ => true)) =
      toVec L cfg items := by
  have he : (fun i : Item ι => match i with | .register _ _ => false | _ => true) = notRegister := by
    funext i; cases i <;> rfl
  rw [he, toString_eq, toString_eq, toVec_eq, toVec_eq, resolveItems_filter L hD]
  exact ⟨rfl, rfl⟩

example : toString plain cfg2 [lit "a", .register 0 "zzz".toList, .space, lit "b",
    .register 1 "zzz".toList] = some "a b".toList := by decide

/-- A language with a short form for interpolating a single literal, as Dart
(src/lang/dart/mod.rs 64-72). -/
def shortEval : Lang Str := { plain with
  startEval := [['$', '{']], endEval := [['}']], evalLiteral := fun s => [['$'], s] }

/-- C18 fails for languages with a short form: a registration next to the
literal turns it off. -/
theorem C18_short_form_negative : ∃ items : List (Item Str),
    toString shortEval cfg2 items ≠
      toString shortEval cfg2
        (items.filter (fun i => match i with | .register _ _ => false | _ => true)) :=
  ⟨[.openQuote true, .openEval, .register 0 [], lit "x", .closeEval, .closeQuote], by decide⟩

/-- C18. For every language, also one with a short form: two streams that differ only
in their registrations (added, removed, moved or exchanged) format to the same text
and lines, provided neither has a registration beside an interpolated single literal. -/
theorem C18_any_language (L : Lang ι) (cfg : Config) (items items' : List (Item ι))
    (hs : items.filter (fun i => match i with | .register _ _ => false | _ => true) =
      items'.filter (fun i => match i with | .register _ _ => false | _ => true))
    (h : Unsplit items) (h' : Unsplit items') :
    toString L cfg items = toString L cfg items' ∧ toVec L cfg items = toVec L cfg items' := by
  have hn : (fun i : Item ι => match i with | .register _ _ => false | _ => true) = notRegister := by
    funext i; cases i <;> rfl
  rw [hn] at hs
  have he : resolveItems L cfg items = resolveItems L cfg items' := by
    rw [← resolveItems_filter_or L cfg items (.inr h), hs,
      resolveItems_filter_or L cfg items' (.inr h')]
  rw [toString_eq, toString_eq, toVec_eq, toVec_eq, he]
  exact ⟨rfl, rfl⟩

/-- The short form is used and the registrations stand outside it. -/
example : toString shortEval cfg2 [.openQuote true, .register 0 [], .openEval, lit "x", .closeEval,
      .register 1 [], .openEval, .register 2 [], lit "x", .space, .closeEval, .closeQuote] =
    toString shortEval cfg2 [.openQuote true, .openEval, lit "x", .closeEval, .openEval, lit "x",
      .space, .closeEval, .closeQuote] := by decide

/-- C18. A single literal with registrations around it is interpolated in the long
form, in every language: this is what the condition of `C18_any_language` excludes. -/
theorem C18_beside (L : Lang ι) (cfg : Config) (p : Nat) (i : ι) (s : ItemStr) :
    toString L cfg [.openQuote true, .openEval, .register p i, .literal s, .closeEval, .closeQuote] =
      some (render cfg ((L.openQuote true ++ L.startEval ++ [s.text] ++ L.endEval ++
        L.closeQuote true).map .text)) ∧
    toString L cfg [.openQuote true, .openEval, .literal s, .closeEval, .closeQuote] =
      some (render cfg ((L.openQuote true ++ L.evalLiteral s.text ++
        L.closeQuote true).map .text)) := by
  constructor
  · rw [toString_eq]
    simp [resolveItems, resolve, texts, pre, Frame.default]
  · rw [toString_eq]
    simp [resolveItems, resolve, texts, pre, Frame.default]

/-- C19. Formatting fails exactly when the recogniser `marksOk` finds an illegal
mark: a closing quote outside a quote, an evaluation outside a quote, the end of
an evaluation that was not opened, or an interpolated quote inside a quote. -/
theorem C19_fails_exactly (L : Lang ι) (cfg : Config) (items : List (Item ι)) :
    (toString L cfg items).isSome = marksOk items := by
  rw [toString_eq, marksOk_eq L cfg]
  cases (resolveItems L cfg items).2 <;> rfl

/-- C19. Properly nested streams (strings, interpolated code in strings, strings
in interpolated code, to any depth; and strings of plain content quoted inside
strings) always format. -/
theorem C19_nested_ok_partial (L : Lang ι) (cfg : Config) (c : Code ι) (hc : c.plain = true) :
    (toString L cfg c.items).isSome = true ∧ marksOk c.items = true := by
  have h : (toString L cfg c.items).isSome = true := by
    rw [toString_eq, resolveItems_code L cfg c hc]
    rfl
  exact ⟨h, by rw [← C19_fails_exactly L cfg]; exact h⟩

/-- C19 fails for three levels of quoting: the marks match, formatting fails. -/
theorem C19_triple_negative (L : Lang ι) (cfg : Config) (s : ItemStr) :
    toString L cfg [.openQuote false, .openQuote false, .openQuote false, .literal s, .closeQuote,
      .closeQuote, .closeQuote] = none := by
  have h := C19_fails_exactly L cfg [.openQuote false, .openQuote false, .openQuote false,
    .literal s, .closeQuote, .closeQuote, .closeQuote]
  have h2 : marksOk ([.openQuote false, .openQuote false, .openQuote false,
    .literal s, .closeQuote, .closeQuote, .closeQuote] : List (Item ι)) = false := rfl
  rw [h2] at h
  simpa using h

/-- C19: unclosed quotes are accepted, so success does not mean balanced. -/
theorem C19_unclosed_negative (L : Lang ι) (cfg : Config) :
    (toString L cfg [.openQuote true, .openEval, .openQuote false]).isSome = true := by
  rw [C19_fails_exactly]
  rfl

example : marksOk ([.openQuote true, .openEval, .closeEval, .closeEval] : List (Item Str)) = false := by
  decide

/-- C23. In a properly nested stream each string is written between the opening
and the closing delimiter of its own kind (`e`), at every depth of strings in
interpolated code in strings: the output is the layout of `Code.acts`, which is
built on the nesting structure. -/
theorem C23_delimiters_match (L : Lang ι) (cfg : Config) (c : Code ι) (hc : c.plain = true) :
    toString L cfg c.items = some (render cfg (c.acts L cfg)) := by
  rw [toString_eq, resolveItems_code L cfg c hc]
  rfl

/-- A language with different delimiters for interpolated strings. -/
def twoQuotes : Lang Str := { plain with
  openQuote := fun e => if e then [['`']] else [['"']]
  closeQuote := fun e => if e then [['`']] else [['"']]
  startEval := [['$', '{']], endEval := [['}']]
  evalLiteral := fun s => [['$', '{'], s, ['}']] }

example : toString twoQuotes cfg2 (Code.items (.quote true (.item (lit "a") (.eval (.quote false
      (.item (lit "b") .nil) (.quote true (.eval (.item (lit "x") (.item (lit "y") .nil)) .nil) .nil))
      (.item (lit "c") .nil))) .nil)) = some "`a${\"b\"`${xy}`}c`".toList := by decide

end Genco.Props
