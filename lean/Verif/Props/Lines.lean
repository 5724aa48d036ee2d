import Verif.Proofs.Emitted
import Verif.Proofs.Escape
import Verif.Props.Layout

/-!
# Properties of the lines of streams and files (C12, C14, C15)
-/

set_option autoImplicit false

namespace Genco.Props

open Genco Spec

variable {ι : Type}

theorem toVec_shape (L : Lang ι) (cfg : Config) (items : List (Item ι))
    (ls : List Str) (h : toVec L cfg items = some ls) :
    ls = (vecActs cfg .new .new (resolveItems L cfg items).1).intoVec := by
  rw [toVec_eq] at h
  simp only [Option.map_eq_some_iff] at h
  obtain ⟨_, _, rfl⟩ := h
  rfl

theorem toFileVec_shape (L : Lang ι) (cfg : Config) (ss : List (List (Item ι)))
    (ls : List Str) (h : toFileVec L cfg ss = some ls) :
    ls = (vecActs cfg .new .new (resolveStreams L cfg ss).1).intoVec := by
  rw [toFileVec_eq] at h
  simp only [Option.map_eq_some_iff] at h
  obtain ⟨_, _, rfl⟩ := h
  rfl

/-- C14. Every rendered line is empty or ends with a text of the stream: the
formatter never leaves whitespace of its own at the end of a line or of the
output. Holds for all streams that format. -/
theorem C14_no_trailing_whitespace (L : Lang ι) (cfg : Config) (items : List (Item ι))
    (ls : List Str) (h : toVec L cfg items = some ls) :
    ∀ l ∈ ls, l = [] ∨ ∃ w t, l = w ++ t ∧ t ≠ [] ∧ EmittedBy L items t :=
  (whole_shape (resolveItems_whole L cfg items) ls (toVec_shape L cfg items ls h)).1

/-- C14: the whole output is empty or ends with a text of the stream, so pending
whitespace at the end is never written, neither as text nor as an extra line. -/
theorem C14_pending_whitespace_dropped (L : Lang ι) (cfg : Config) (items : List (Item ι))
    (ls : List Str) (h : toVec L cfg items = some ls) :
    ls = [[]] ∨ ∃ p w t, ls = p ++ [w ++ t] ∧ t ≠ [] ∧ EmittedBy L items t :=
  (whole_shape (resolveItems_whole L cfg items) ls (toVec_shape L cfg items ls h)).2.1

/-- C14 for files, header and body. -/
theorem C14_file_lines (L : Lang ι) (cfg : Config) (ss : List (List (Item ι)))
    (ls : List Str) (h : toFileVec L cfg ss = some ls) :
    ∀ l ∈ ls, l = [] ∨ ∃ w t, l = w ++ t ∧ t ≠ [] ∧ ∃ items ∈ ss, EmittedBy L items t :=
  (whole_shape (resolveStreams_whole L cfg ss) ls (toFileVec_shape L cfg ss ls h)).1

/-- Not ending in a space or tab. -/
def EndsInk (t : Str) : Prop := ∀ p c, t = p ++ [c] → c ≠ ' ' ∧ c ≠ '\t'

theorem endsInk_append {a b : Str} (hb : b ≠ []) (h : EndsInk b) : EndsInk (a ++ b) := by
  intro p c hc
  rcases List.eq_nil_or_concat b with h0 | ⟨q, d, hq⟩
  · exact absurd h0 hb
  · rw [List.concat_eq_append] at hq
    have := h q d hq
    rw [hq, ← List.append_assoc] at hc
    have := List.append_inj' hc rfl
    simp at this
    rw [← this.2]
    assumption

/-- Only blanks are escaped as blanks. -/
def Inky (esc : Char → Str) : Prop := ∀ c, c ≠ ' ' → c ≠ '\t' → ∀ d ∈ esc c, d ≠ ' ' ∧ d ≠ '\t'

theorem endsInk_flatMap {esc : Char → Str} (h : Inky esc) (hne : ∀ c, esc c ≠ []) {s : Str}
    (hs : EndsInk s) : EndsInk (s.map esc).flatten := by
  rcases List.eq_nil_or_concat s with rfl | ⟨q, d, rfl⟩
  · intro p c hc; simp at hc
  · rw [List.concat_eq_append] at hs ⊢
    obtain ⟨h1, h2⟩ := hs q d rfl
    rw [List.map_append, List.flatten_append]
    refine endsInk_append (by simpa using hne d) ?_
    intro p c hc
    refine h d h1 h2 c ?_
    have : (List.map esc [d]).flatten = esc d := by simp
    rw [← this, hc]
    simp

theorem hexFixed_ink (k n : Nat) : ∀ d ∈ hexFixed k n, d ≠ ' ' ∧ d ≠ '\t' := by
  induction k generalizing n with
  | zero => simp [hexFixed]
  | succ k ih =>
    intro d hd
    simp only [hexFixed, List.mem_append, List.mem_singleton] at hd
    rcases hd with hd | rfl
    · exact ih _ d hd
    · have : ∀ m < 16, hexDigit m ≠ ' ' ∧ hexDigit m ≠ '\t' := by decide
      exact this _ (Nat.mod_lt _ (by decide))

theorem hexMin_ink (k n : Nat) : ∀ d ∈ hexMin k n, d ≠ ' ' ∧ d ≠ '\t' := hexFixed_ink _ _

theorem inky_utf16 (c : Char) : ∀ d ∈ escUtf16 c, d ≠ ' ' ∧ d ≠ '\t' := by
  intro d hd
  unfold escUtf16 at hd
  rw [List.mem_flatMap] at hd
  obtain ⟨u, -, hd⟩ := hd
  rcases List.mem_append.1 hd with hd | hd
  · have : ∀ d ∈ "\\u".toList, d ≠ ' ' ∧ d ≠ '\t' := by decide
    exact this d hd
  · exact hexMin_ink _ _ d hd

theorem ink_append {a b : Str} (ha : ∀ d ∈ a, d ≠ ' ' ∧ d ≠ '\t') (hb : ∀ d ∈ b, d ≠ ' ' ∧ d ≠ '\t') :
    ∀ d ∈ a ++ b, d ≠ ' ' ∧ d ≠ '\t' := by
  intro d hd
  rcases List.mem_append.1 hd with h | h
  · exact ha d h
  · exact hb d h

theorem inky_rust : Inky escRust := by
  intro c h1 h2
  unfold escRust
  repeat' split
  all_goals first
    | decide
    | (intro d hd; rw [List.mem_singleton.1 hd]; exact ⟨h1, h2⟩)
    | exact ink_append (by decide) (hexMin_ink _ _)
    | exact ink_append (ink_append (by decide) (hexMin_ink _ _)) (by decide)

theorem inky_js : Inky escJs := by
  intro c h1 h2
  unfold escJs
  repeat' split
  all_goals first
    | decide
    | (intro d hd; rw [List.mem_singleton.1 hd]; exact ⟨h1, h2⟩)
    | exact ink_append (by decide) (hexMin_ink _ _)
    | exact ink_append (ink_append (by decide) (hexMin_ink _ _)) (by decide)

theorem inky_swift : Inky escSwift := by
  intro c h1 h2
  unfold escSwift
  repeat' split
  all_goals first
    | decide
    | (intro d hd; rw [List.mem_singleton.1 hd]; exact ⟨h1, h2⟩)
    | exact ink_append (ink_append (by decide) (hexMin_ink _ _)) (by decide)

theorem ink_ite {p : Prop} [Decidable p] {a b : Str} (ha : ∀ d ∈ a, d ≠ ' ' ∧ d ≠ '\t')
    (hb : ∀ d ∈ b, d ≠ ' ' ∧ d ≠ '\t') : ∀ d ∈ (if p then a else b), d ≠ ' ' ∧ d ≠ '\t' := by
  by_cases h : p
  · rwa [if_pos h]
  · rwa [if_neg h]

theorem inky_cFamily : Inky escCFamily := by
  intro c h1 h2
  unfold escCFamily
  rw [if_neg h1]
  iterate 10 refine ink_ite (by decide) ?_
  refine ink_ite (ink_ite ?_ (ink_append (by decide) (hexMin_ink _ _)))
    (ink_ite (ink_append (by decide) (hexMin_ink _ _)) (ink_append (by decide) (hexMin_ink _ _)))
  intro d hd
  rw [List.mem_singleton.1 hd]
  exact ⟨h1, h2⟩

theorem inky_java : Inky escJava := by
  intro c h1 h2
  unfold escJava
  rw [if_neg h2, if_neg h1]
  repeat' split
  all_goals first
    | decide
    | (intro d hd; rw [List.mem_singleton.1 hd]; exact ⟨h1, h2⟩)
    | exact inky_utf16 c

theorem inky_dart : Inky escDart := by
  intro c h1 h2
  unfold escDart
  repeat' split
  all_goals first
    | decide
    | (intro d hd; rw [List.mem_singleton.1 hd]; exact ⟨h1, h2⟩)
    | exact ink_append (by decide) (hexMin_ink _ _)
    | exact inky_utf16 c

theorem javaEsc_ne (c : Char) : escJava c ≠ [] := by
  unfold escJava
  repeat' split
  all_goals first | exact escUtf16_ne c | simp

/-- What a stream of literals and language items without blanks at their ends writes has none either,
for a language that escapes character by character. -/
theorem emitted_ink (L : Lang ι) (esc : Char → Str) (hq : ∀ s, L.writeQuoted s = s.map esc)
    (hi : Inky esc) (hne : ∀ c, esc c ≠ [])
    (ho : ∀ e, EndsInk (L.openQuote e).flatten)
    (hc : ∀ e, (L.closeQuote e).flatten ≠ [] ∧ EndsInk (L.closeQuote e).flatten)
    (hs : EndsInk L.startEval.flatten) (he : EndsInk L.endEval.flatten)
    (hl : ∀ s, EndsInk s → EndsInk (L.evalLiteral s).flatten)
    (items : List (Item ι)) (h1 : ∀ s, Item.literal s ∈ items → EndsInk s.text)
    (h2 : ∀ p i, Item.lang p i ∈ items → EndsInk (L.langItem i).flatten) (t : Str)
    (ht : EmittedBy L items t) : EndsInk t := by
  cases ht with
  | literal h => exact h1 _ h
  | lang h => exact h2 _ _ h
  | quoted _ h => rw [hq]; exact endsInk_flatMap hi hne (h1 _ h)
  | inner x _ => rw [hq]; exact endsInk_flatMap hi hne (endsInk_append (hc _).1 (hc _).2)
  | openQuote _ => exact ho _
  | closeQuote e _ => exact (hc e).2
  | startEval _ => exact hs
  | endEval _ => exact he
  | evalLiteral _ h => exact hl _ (h1 _ h)

theorem endsInk_nil : EndsInk [] := by intro p c h; simp at h

theorem endsInk_one {c : Char} (h : c ≠ ' ' ∧ c ≠ '\t') : EndsInk [c] := by
  intro p d hd
  cases p with
  | nil => simp at hd; exact hd ▸ h
  | cons a p => simp at hd

theorem endsInk_snoc {s : Str} {c : Char} (h : c ≠ ' ' ∧ c ≠ '\t') : EndsInk (s ++ [c]) :=
  endsInk_append (by simp) (endsInk_one h)

theorem emitted_base (esc : Char → Str) (li : ι → List Str) (hi : Inky esc) (hne : ∀ c, esc c ≠ [])
    (items : List (Item ι)) (h1 : ∀ s, Item.literal s ∈ items → EndsInk s.text)
    (h2 : ∀ p i, Item.lang p i ∈ items → EndsInk (li i).flatten) (t : Str)
    (ht : EmittedBy (baseLang esc li) items t) : EndsInk t :=
  emitted_ink (baseLang esc li) esc (fun _ => rfl) hi hne (fun _ => endsInk_one (by decide))
    (fun _ => ⟨by simp [baseLang], endsInk_one (by decide)⟩) endsInk_nil endsInk_nil
    (fun s hs => by simpa [baseLang] using hs) items h1 h2 t ht

theorem emitted_builtin (L : Lang ι) (li : ι → List Str)
    (hL : L ∈ [rustLang li, swiftLang li, pythonLang li, javaLang li, cLang li, csharpLang li,
      goLang li, nixLang li, jsLang li, dartLang li]) (items : List (Item ι))
    (h1 : ∀ s, Item.literal s ∈ items → EndsInk s.text)
    (h2 : ∀ p i, Item.lang p i ∈ items → EndsInk (li i).flatten) (t : Str)
    (ht : EmittedBy L items t) : EndsInk t := by
  simp only [List.mem_cons, List.not_mem_nil, or_false] at hL
  rcases hL with rfl | rfl | rfl | rfl | rfl | rfl | rfl | rfl | rfl | rfl
  · exact emitted_base _ li inky_rust escRust_ne items h1 h2 t ht
  · exact emitted_base _ li inky_swift escSwift_ne items h1 h2 t ht
  · exact emitted_base _ li inky_cFamily escCFamily_ne items h1 h2 t ht
  · exact emitted_base _ li inky_java javaEsc_ne items h1 h2 t ht
  · exact emitted_base _ li inky_cFamily escCFamily_ne items h1 h2 t ht
  · exact emitted_base _ li inky_cFamily escCFamily_ne items h1 h2 t ht
  · exact emitted_base _ li inky_cFamily escCFamily_ne items h1 h2 t ht
  · exact emitted_base _ li inky_cFamily escCFamily_ne items h1 h2 t ht
  · refine emitted_ink (jsLang li) escJs (fun _ => rfl) inky_js escJs_ne ?_ ?_ ?_ ?_ ?_ items h1 h2 t ht
    · intro e; cases e <;> exact endsInk_one (by decide)
    · intro e; cases e <;> exact ⟨by simp [jsLang], endsInk_one (by decide)⟩
    · exact endsInk_snoc (s := ['$']) (by decide)
    · exact endsInk_one (by decide)
    · intro s _
      have : ((jsLang li).evalLiteral s).flatten = "${".toList ++ s ++ ['}'] := by simp [jsLang]
      rw [this]
      exact endsInk_snoc (by decide)
  · refine emitted_ink (dartLang li) escDart (fun _ => rfl) inky_dart escDart_ne ?_ ?_ ?_ ?_ ?_ items h1 h2 t ht
    · intro e; exact endsInk_one (by decide)
    · intro e; exact ⟨by simp [dartLang], endsInk_one (by decide)⟩
    · exact endsInk_snoc (s := ['$']) (by decide)
    · exact endsInk_one (by decide)
    · intro s hs
      have : ((dartLang li).evalLiteral s).flatten = ['$'] ++ s := by simp [dartLang]
      rw [this]
      by_cases h0 : s = []
      · rw [h0]; exact endsInk_one (by decide)
      · exact endsInk_append h0 hs

/-- C14 for the ten languages: if no literal and no rendered import of a file ends with a space or
tab, no line of the file does, in strings or outside. -/
theorem C14_lines_end_in_ink (L : Lang ι) (li : ι → List Str)
    (hL : L ∈ [rustLang li, swiftLang li, pythonLang li, javaLang li, cLang li, csharpLang li,
      goLang li, nixLang li, jsLang li, dartLang li]) (cfg : Config) (ss : List (List (Item ι)))
    (h1 : ∀ items ∈ ss, ∀ s, Item.literal s ∈ items → ∀ p c, s.text = p ++ [c] → c ≠ ' ' ∧ c ≠ '\t')
    (h2 : ∀ items ∈ ss, ∀ n i, Item.lang n i ∈ items → ∀ p c, (li i).flatten = p ++ [c] → c ≠ ' ' ∧ c ≠ '\t')
    (ls : List Str) (h : toFileVec L cfg ss = some ls) :
    ∀ l ∈ ls, ∀ p c, l = p ++ [c] → c ≠ ' ' ∧ c ≠ '\t' := by
  intro l hl
  rcases C14_file_lines L cfg ss ls h l hl with h0 | ⟨w, t, h3, h4, items, h5, h6⟩
  · rw [h0]; exact endsInk_nil
  · rw [h3]
    exact endsInk_append h4 (emitted_builtin L li hL items (h1 items h5) (h2 items h5) t h6)

/-- Blanks in a string that is not the end of a literal, and pending whitespace in it. -/
example : toFileVec (jsLang (fun s : Str => [s])) cfg2 [[lit "a", .space, .line], [.openQuote true, lit "b c",
    .openEval, lit "d", .closeEval, .space, .indentation 1, lit "e", .space, .push, .openQuote false, .space,
    lit "x", .closeQuote, .closeQuote, .space]] =
    some ["a".toList, [], "`b c${d}".toList, "  e".toList, "  \\\" x\\\"`".toList] := by decide

example : toVec plain cfg2 [lit "a", .space, .line, .indentation 2, .space, .push, lit "b", .line,
    .space] = some ["a".toList, [], "     b".toList] := by decide

/-- C12. A file ends with the text written last and one newline: there is no blank line and no
whitespace of the formatter at its end. -/
theorem C12_ends_with_text (L : Lang ι) (cfg : Config) (ss : List (List (Item ι))) (s : Str)
    (h : toFileString L cfg ss = some s) :
    s = cfg.newline ∨ ∃ before t, s = before ++ t ++ cfg.newline ∧ t ≠ [] ∧
      ∃ items ∈ ss, EmittedBy L items t := by
  rw [C12_file_trailing_newline, Option.map_eq_some_iff] at h
  obtain ⟨ls, h, rfl⟩ := h
  rcases (whole_shape (resolveStreams_whole L cfg ss) ls (toFileVec_shape L cfg ss ls h)).2.1 with
    rfl | ⟨p, w, t, rfl, h2, h3⟩
  · exact Or.inl (by simp)
  · refine Or.inr ⟨cfg.newline.intercalate (p ++ [w]), t, ?_, h2, h3⟩
    have : ∀ q : List Str, cfg.newline.intercalate (q ++ [w ++ t]) = cfg.newline.intercalate (q ++ [w]) ++ t := by
      intro q
      induction q with
      | nil => simp
      | cons a q ih =>
        cases q with
        | nil => simp [List.intercalate, List.intersperse]
        | cons b q =>
          simp only [List.cons_append, List.intercalate_cons_cons] at ih ⊢
          rw [ih]; simp
    rw [this]

example : toFileString plain cfg2 [[lit "use", .line], [.push, lit "a", .line, .indentation 1, .space]] =
    some "use\n\na\n".toList := by decide

/-- C15. The rendered lines never start with an empty line (unless there is no
text at all) and never contain two empty lines in a row. -/
theorem C15_blank_lines (L : Lang ι) (cfg : Config) (items : List (Item ι)) (ls : List Str)
    (h : toVec L cfg items = some ls) :
    (ls = [[]] ∨ ∀ l r, ls = l :: r → l ≠ []) ∧ ∀ p q, ls ≠ p ++ [] :: [] :: q :=
  (whole_shape (resolveItems_whole L cfg items) ls (toVec_shape L cfg items ls h)).2.2

/-- C15 for files, header and body. -/
theorem C15_file (L : Lang ι) (cfg : Config) (ss : List (List (Item ι))) (ls : List Str)
    (h : toFileVec L cfg ss = some ls) :
    (ls = [[]] ∨ ∀ l r, ls = l :: r → l ≠ []) ∧ ∀ p q, ls ≠ p ++ [] :: [] :: q :=
  (whole_shape (resolveStreams_whole L cfg ss) ls (toFileVec_shape L cfg ss ls h)).2.2

example : toVec plain cfg2 [.line, .push, .line, lit "a", .line, .space, .line, .register 0 [], .line,
    .indentation 1, .line, lit "b"] = some ["a".toList, [], "  b".toList] := by decide

/-- Line requests at the end of the header and at the start of the body. -/
example : toFileVec plain cfg2 [[.line, lit "use", .line, .line], [.line, .push, .line, lit "a"]] =
    some ["use".toList, [], "a".toList] := by decide

end Genco.Props
