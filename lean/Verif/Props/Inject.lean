import Verif.Proofs.Inject
import Verif.Props.Escape

/-!
# More properties of quoted text (C61, C62)
-/

set_option autoImplicit false

namespace Genco.Props

open Genco Spec

variable {ι : Type}

/-- The languages that share `c_family_write_quoted`, and Java. -/
def asciiLangs (li : ι → List Str) : List (Lang ι) :=
  [pythonLang li, cLang li, csharpLang li, goLang li, nixLang li, javaLang li]

/-- All built-in languages. -/
def allLangs (li : ι → List Str) : List (Lang ι) :=
  asciiLangs li ++ [rustLang li, swiftLang li, jsLang li, dartLang li]

theorem quoted_all {P : Char → Bool} {esc : Char → Str} (L : Lang ι) (cfg : Config) (ev : Bool) (s : ItemStr)
    (hw : ∀ s, L.writeQuoted s = s.map esc) (h : ∀ c, AllC P (esc c))
    (ho : AllC P (L.openQuote ev).flatten) (hc : AllC P (L.closeQuote ev).flatten) :
    ∃ out, toString L cfg [.openQuote ev, .literal s, .closeQuote] = some out ∧ ∀ c ∈ out, P c = true := by
  refine ⟨_, toString_quoted L cfg ev s, ?_⟩
  refine AllC.append (AllC.append ho ?_) hc
  rw [hw]
  exact AllC.flatMap h s.text

/-- C61. Literals of Java and of the languages of the C family are printable
ASCII, whatever the text. -/
theorem C61_ascii (li : ι → List Str) (L : Lang ι) (hL : L ∈ asciiLangs li) (cfg : Config) (ev : Bool)
    (s : ItemStr) :
    ∃ out, toString L cfg [.openQuote ev, .literal s, .closeQuote] = some out ∧
      ∀ c ∈ out, 0x20 ≤ c.toNat ∧ c.toNat < 0x7f := by
  have key : ∃ out, toString L cfg [.openQuote ev, .literal s, .closeQuote] = some out ∧
      ∀ c ∈ out, printable c = true := by
    simp only [asciiLangs, List.mem_cons, List.not_mem_nil, or_false] at hL
    rcases hL with rfl | rfl | rfl | rfl | rfl | rfl
    · exact quoted_all _ cfg ev s (fun _ => rfl) allC_cFamily (.lit rfl) (.lit rfl)
    · exact quoted_all _ cfg ev s (fun _ => rfl) allC_cFamily (.lit rfl) (.lit rfl)
    · exact quoted_all _ cfg ev s (fun _ => rfl) allC_cFamily (.lit rfl) (.lit rfl)
    · exact quoted_all _ cfg ev s (fun _ => rfl) allC_cFamily (.lit rfl) (.lit rfl)
    · exact quoted_all _ cfg ev s (fun _ => rfl) allC_cFamily (.lit rfl) (.lit rfl)
    · exact quoted_all _ cfg ev s (fun _ => rfl) allC_java (.lit rfl) (.lit rfl)
  obtain ⟨out, h1, h2⟩ := key
  refine ⟨out, h1, fun c hc => ?_⟩
  have := h2 c hc
  simpa [printable] using this

/-- C61. Literals of all languages are free of control characters. -/
theorem C61_no_controls (li : ι → List Str) (L : Lang ι) (hL : L ∈ allLangs li) (cfg : Config) (ev : Bool)
    (s : ItemStr) :
    ∃ out, toString L cfg [.openQuote ev, .literal s, .closeQuote] = some out ∧
      ∀ c ∈ out, Spec.control c = false := by
  rcases List.mem_append.1 hL with hL | hL
  · obtain ⟨out, h1, h2⟩ := C61_ascii li L hL cfg ev s
    refine ⟨out, h1, fun c hc => ?_⟩
    have := h2 c hc
    simp only [Spec.control, Bool.or_eq_false_iff, Bool.and_eq_false_iff, decide_eq_false_iff_not]
    omega
  · have key : ∃ out, toString L cfg [.openQuote ev, .literal s, .closeQuote] = some out ∧
        ∀ c ∈ out, shown c = true := by
      simp only [List.mem_cons, List.not_mem_nil, or_false] at hL
      rcases hL with rfl | rfl | rfl | rfl
      · exact quoted_all _ cfg ev s (fun _ => rfl) allC_rust (.lit rfl) (.lit rfl)
      · exact quoted_all _ cfg ev s (fun _ => rfl) allC_swift (.lit rfl) (.lit rfl)
      · exact quoted_all _ cfg ev s (fun _ => rfl) allC_js (by cases ev <;> exact .lit rfl)
          (by cases ev <;> exact .lit rfl)
      · exact quoted_all _ cfg ev s (fun _ => rfl) allC_dart (.lit rfl) (.lit rfl)
    obtain ⟨out, h1, h2⟩ := key
    refine ⟨out, h1, fun c hc => ?_⟩
    have := h2 c hc
    simp only [shown, isControl, Bool.not_eq_true'] at this
    exact this

/-- The text has characters of all kinds. -/
example : toString (javaLang (fun _ : Nat => [])) ⟨.tab, ['\n']⟩
    [.openQuote false, .literal (.box "é\x01😀".toList), .closeQuote] =
    some "\"\\u00e9\\u0001\\ud83d\\ude00\"".toList := by decide +kernel

theorem quoted_inj {esc : Char → Str} (L : Lang ι) (cfg : Config) (ev : Bool) (s t : ItemStr)
    (hw : ∀ s, L.writeQuoted s = s.map esc) (hp : PrefixCode esc) (hne : ∀ c, esc c ≠ [])
    (h : toString L cfg [.openQuote ev, .literal s, .closeQuote] =
      toString L cfg [.openQuote ev, .literal t, .closeQuote]) : s.text = t.text := by
  rw [toString_quoted, toString_quoted, hw, hw] at h
  have h := List.append_cancel_right (Option.some.inj h)
  exact hp.flatMap hne (List.append_cancel_left h)

/-- C62. In every language different texts give different literals. -/
theorem C62_injective (li : ι → List Str) (L : Lang ι) (hL : L ∈ allLangs li) (cfg : Config) (ev : Bool)
    (s t : ItemStr)
    (h : toString L cfg [.openQuote ev, .literal s, .closeQuote] =
      toString L cfg [.openQuote ev, .literal t, .closeQuote]) : s.text = t.text := by
  simp only [allLangs, asciiLangs, List.cons_append, List.nil_append, List.mem_cons, List.not_mem_nil,
    or_false] at hL
  rcases hL with rfl | rfl | rfl | rfl | rfl | rfl | rfl | rfl | rfl | rfl
  · exact quoted_inj _ cfg ev s t (fun _ => rfl) prefix_cFamily escCFamily_ne h
  · exact quoted_inj _ cfg ev s t (fun _ => rfl) prefix_cFamily escCFamily_ne h
  · exact quoted_inj _ cfg ev s t (fun _ => rfl) prefix_cFamily escCFamily_ne h
  · exact quoted_inj _ cfg ev s t (fun _ => rfl) prefix_cFamily escCFamily_ne h
  · exact quoted_inj _ cfg ev s t (fun _ => rfl) prefix_cFamily escCFamily_ne h
  · exact quoted_inj _ cfg ev s t (fun _ => rfl) prefix_java escJava_ne h
  · exact quoted_inj _ cfg ev s t (fun _ => rfl) prefix_rust escRust_ne h
  · exact quoted_inj _ cfg ev s t (fun _ => rfl) prefix_swift escSwift_ne h
  · exact quoted_inj _ cfg ev s t (fun _ => rfl) prefix_js escJs_ne h
  · exact quoted_inj _ cfg ev s t (fun _ => rfl) prefix_dart escDart_ne h

/-- Near misses: texts whose literals differ only in how an escape continues. -/
example : (toString (cLang (fun _ : Nat => [])) ⟨.tab, ['\n']⟩
      [.openQuote false, .literal (.box "\x01b".toList), .closeQuote] = some "\"\\x01b\"".toList) ∧
    toString (cLang (fun _ : Nat => [])) ⟨.tab, ['\n']⟩
      [.openQuote false, .literal (.box "\x1b".toList), .closeQuote] = some "\"\\x1b\"".toList := by
  decide +kernel

end Genco.Props
