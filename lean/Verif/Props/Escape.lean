import Verif.Proofs.EscapeIff
import Verif.Proofs.Split
import Verif.Proofs.Gaps
import Verif.Props.Layout

/-!
# Properties of quoted text (C22, C26–C38)
-/

set_option autoImplicit false

namespace Genco.Props

open Genco Spec

variable {ι : Type}

theorem flushed_texts (cfg : Config) (st : LSt) (l : List Str) :
    evText cfg.newline (actsEv cfg st.flushed (texts l)) = l.flatten := by
  induction l with
  | nil => rfl
  | cons s l ih =>
    show evText _ (actEv cfg st.flushed (.text s) ++ actsEv cfg (actSt st.flushed (.text s)) (texts l)) = _
    rw [evText_append]
    by_cases hs : s = []
    · subst hs
      exact ih
    · rw [show actSt st.flushed (.text s) = st.flushed by simp [actSt, hs, flushed_flushed], ih]
      simp [actEv, hs, flushEv_flushed, evText]

/-- Texts without whitespace requests are rendered one after the other. -/
theorem render_texts (cfg : Config) (l : List Str) : render cfg (l.map .text) = l.flatten := by
  rw [← renderActs_eq]
  show evText cfg.newline (actsEv cfg .new (texts l)) = _
  have h : ∀ s : Str, s ≠ [] → evText cfg.newline (actEv cfg .new (.text s)) = s := by
    intro s hs
    simp only [actEv, ne_eq, hs, not_false_eq_true, if_true, evText_append, evText_flush]
    simp [LSt.new, Whitespace.intoIndent, evText, marginText]
    cases cfg.indentation <;> simp
  induction l with
  | nil => rfl
  | cons s l ih =>
    show evText _ (actEv cfg .new (.text s) ++ actsEv cfg (actSt .new (.text s)) (texts l)) = _
    rw [evText_append]
    by_cases hs : s = []
    · subst hs
      exact ih
    · rw [h s hs, show actSt .new (.text s) = LSt.new.flushed by simp [actSt, hs], flushed_texts]
      rfl

/-- A quoted literal between its delimiters. -/
theorem toString_quoted (L : Lang ι) (cfg : Config) (ev : Bool) (s : ItemStr) :
    toString L cfg [.openQuote ev, .literal s, .closeQuote] =
      some ((L.openQuote ev).flatten ++ (L.writeQuoted s.text).flatten ++
        (L.closeQuote ev).flatten) := by
  have h := C13_layout_quotes L cfg (.quote ev (.item (.literal s) .nil) .nil) rfl
  have : (Code.quote ev (.item (.literal s) .nil) .nil : Code ι).items =
    [.openQuote ev, .literal s, .closeQuote] := rfl
  rw [this] at h
  rw [h]
  simp only [Code.acts, Body.acts, quotedActs, List.append_nil]
  rw [← List.map_append, ← List.map_append, render_texts]
  simp

theorem flatten_map (esc : Char → Str) (s : Str) : (s.map esc).flatten = s.flatMap esc := rfl

theorem toString_base (esc : Char → Str) (li : ι → List Str) (cfg : Config) (s : ItemStr) :
    toString (baseLang esc li) cfg [.openQuote false, .literal s, .closeQuote] =
      some ('"' :: (s.text.flatMap esc ++ ['"'])) := by
  rw [toString_quoted]
  rfl

/-- There is only one inside of a literal. -/
theorem body_iff {α : Type} {q : Char} {o : Option Str} {b : Str} (h : o = some (q :: (b ++ [q])))
    (f : Str → Option α) (v : Option α) :
    (∃ body, o = some (q :: (body ++ [q])) ∧ f body = v) ↔ f b = v := by
  constructor
  · rintro ⟨b', h1, h2⟩
    rw [h] at h1
    simp only [Option.some.injEq, List.cons.injEq, true_and, List.append_cancel_right_eq] at h1
    rw [h1]
    exact h2
  · intro h'
    exact ⟨b, h, h'⟩

/-! ## Code points -/

/-- C26. Every text quoted for Rust is read back unchanged. -/
theorem C26_rust (li : ι → List Str) (cfg : Config) (s : ItemStr) :
    ∃ body, toString (rustLang li) cfg [.openQuote false, .literal s, .closeQuote] =
        some ('"' :: (body ++ ['"'])) ∧
      decode rustReader body = some s.text := by
  refine ⟨_, toString_base escRust li cfg s, ?_⟩
  rw [decode_flatMap rustReader escRust (fun c => [c]) escRust_ne s.text
    (fun p c r _ => rust_step c _), flatMap_single]
  simp

example : decode rustReader (("a\"\\\n\x07\u0085é😀".toList).flatMap escRust) =
    some "a\"\\\n\x07\u0085é😀".toList := by decide +kernel

/-- C27. Every text quoted for Swift is read back unchanged; in particular it
contains no interpolation (the reader rejects `\(`). -/
theorem C27_swift (li : ι → List Str) (cfg : Config) (s : ItemStr) :
    ∃ body, toString (swiftLang li) cfg [.openQuote false, .literal s, .closeQuote] =
        some ('"' :: (body ++ ['"'])) ∧
      decode swiftReader body = some s.text := by
  refine ⟨_, toString_base escSwift li cfg s, ?_⟩
  rw [decode_flatMap swiftReader escSwift (fun c => [c]) escSwift_ne s.text
    (fun p c r _ => swift_step c _), flatMap_single]
  simp

example : decode swiftReader (("\\(x)\"'\x0b\x7fé😀".toList).flatMap escSwift) =
    some "\\(x)\"'\x0b\x7fé😀".toList := by decide +kernel

/-- C28. What Python reads back: the text, with U+0012 turned into a form feed
and U+0011 into a vertical tab. -/
theorem C28_python_exact_partial (li : ι → List Str) (cfg : Config) (s : ItemStr) :
    ∃ body, toString (pythonLang li) cfg [.openQuote false, .literal s, .closeQuote] =
        some ('"' :: (body ++ ['"'])) ∧
      decode pythonReader body = some (s.text.map fun c =>
        if c = '\x12' then '\x0c' else if c = '\x11' then '\x0b' else c) := by
  refine ⟨_, toString_base escCFamily li cfg s, ?_⟩
  rw [decode_flatMap pythonReader escCFamily (fun c => [cFamilyFix c]) escCFamily_ne s.text
    (fun p c r _ => python_step c _), flatMap_single]
  rfl

theorem map_fix_iff (f : Char → Char) (s : Str) : s.map f = s ↔ ∀ c ∈ s, f c = c := by
  induction s with
  | nil => simp
  | cons c s ih => simp [ih]

theorem cFamilyFix_iff (c : Char) : cFamilyFix c = c ↔ c ≠ '\x12' ∧ c ≠ '\x11' := by
  unfold cFamilyFix
  by_cases h1 : c = '\x12'
  · subst h1; simp
  · by_cases h2 : c = '\x11'
    · subst h2; simp
    · simp [h1, h2]

/-- C28. A text quoted for Python is read back unchanged exactly if it contains
neither U+0011 nor U+0012. -/
theorem C28_python_partial (li : ι → List Str) (cfg : Config) (s : ItemStr) :
    (∃ body, toString (pythonLang li) cfg [.openQuote false, .literal s, .closeQuote] =
        some ('"' :: (body ++ ['"'])) ∧
      decode pythonReader body = some s.text) ↔ ∀ c ∈ s.text, c ≠ '\x12' ∧ c ≠ '\x11' := by
  obtain ⟨body, h1, h2⟩ := C28_python_exact_partial li cfg s
  have hfix := map_fix_iff cFamilyFix s.text
  constructor
  · rintro ⟨b, hb1, hb2⟩ c hc
    rw [h1] at hb1
    simp only [Option.some.injEq, List.cons.injEq, true_and, List.append_cancel_right_eq] at hb1
    subst hb1
    rw [h2, Option.some.injEq] at hb2
    exact (cFamilyFix_iff c).1 (hfix.1 hb2 c hc)
  · intro h
    refine ⟨body, h1, ?_⟩
    rw [h2, Option.some.injEq]
    exact hfix.2 fun c hc => (cFamilyFix_iff c).2 (h c hc)

example : decode pythonReader (("a\"'\\\n\x07\u0085é😀".toList).flatMap escCFamily) =
    some "a\"'\\\n\x07\u0085é😀".toList := by decide +kernel

/-! ## UTF-16 -/

/-- C29. What Java reads back, as UTF-16: the text, with U+0007 turned into a
backspace and U+0014 into a form feed. -/
theorem C29_java_exact_partial (li : ι → List Str) (cfg : Config) (s : ItemStr) :
    ∃ body, toString (javaLang li) cfg [.openQuote false, .literal s, .closeQuote] =
        some ('"' :: (body ++ ['"'])) ∧
      javaDecode body = some (s.text.flatMap fun c => utf16
        (if c = '\x07' then '\x08' else if c = '\x14' then '\x0c' else c)) :=
  ⟨_, toString_base escJava li cfg s, java_decode s.text⟩

/-- C29. A text quoted for Java is read back unchanged exactly if it contains
neither U+0007 nor U+0014. -/
theorem C29_java_partial (li : ι → List Str) (cfg : Config) (s : ItemStr) :
    (∃ body, toString (javaLang li) cfg [.openQuote false, .literal s, .closeQuote] =
        some ('"' :: (body ++ ['"'])) ∧
      javaDecode body = some (s.text.flatMap utf16)) ↔ ∀ c ∈ s.text, c ≠ '\x07' ∧ c ≠ '\x14' := by
  rw [show javaLang li = baseLang escJava li from rfl, body_iff (toString_base escJava li cfg s), java_decode, Option.some.injEq]
  exact utf16_java_iff s.text

/-- C29 fails: the bell character is read back as a backspace. -/
theorem C29_java_negative : ∃ s : Str,
    javaDecode (s.flatMap escJava) ≠ some (s.flatMap utf16) := ⟨['\x07'], by decide +kernel⟩

example : javaDecode (("a\"'\\u0041\n\u0085é😀".toList).flatMap escJava) =
    some ("a\"'\\u0041\n\u0085é😀".toList.flatMap utf16) := by decide +kernel

/-- C30. What JavaScript reads back, as UTF-16, for texts in which no NUL is
followed by a decimal digit: the text, with U+0012 turned into a form feed and
U+0011 into a vertical tab. -/
theorem C30_js_exact_partial (li : ι → List Str) (cfg : Config) (s : ItemStr)
    (hz : NulsApart s.text) :
    ∃ body, toString (jsLang li) cfg [.openQuote false, .literal s, .closeQuote] =
        some ('"' :: (body ++ ['"'])) ∧
      decode jsReader body = some (s.text.flatMap fun c => utf16
        (if c = '\x12' then '\x0c' else if c = '\x11' then '\x0b' else c)) := by
  refine ⟨s.text.flatMap escJs, by rw [toString_quoted]; rfl, ?_⟩
  exact decode_flatMap jsReader escJs (fun c => utf16 (cFamilyFix c)) escJs_ne s.text
    (fun p c r h => js_step c _ fun hc => noDigit_flatMap s.text p r hz (by rw [h, hc]))

/-- C30. A text quoted for JavaScript is read back unchanged exactly if no NUL of
it is followed by a decimal digit and it contains neither U+0011 nor U+0012. -/
theorem C30_js_partial (li : ι → List Str) (cfg : Config) (s : ItemStr) :
    (∃ body, toString (jsLang li) cfg [.openQuote false, .literal s, .closeQuote] =
        some ('"' :: (body ++ ['"'])) ∧
      decode jsReader body = some (s.text.flatMap utf16)) ↔
    NulsApart s.text ∧ ∀ c ∈ s.text, c ≠ '\x12' ∧ c ≠ '\x11' := by
  have hb : toString (jsLang li) cfg [.openQuote false, .literal s, .closeQuote] =
      some ('"' :: (s.text.flatMap escJs ++ ['"'])) := by rw [toString_quoted]; rfl
  rw [body_iff hb]
  have hx : NulsApart s.text → decode jsReader (s.text.flatMap escJs) =
      some (s.text.flatMap fun c => utf16 (cFamilyFix c)) := fun hz =>
    decode_flatMap jsReader escJs (fun c => utf16 (cFamilyFix c)) escJs_ne s.text
      (fun p c r h => js_step c _ fun hc => noDigit_flatMap s.text p r hz (by rw [h, hc]))
  constructor
  · intro h
    have hz := js_reads_only _ _ h
    rw [hx hz, Option.some.injEq] at h
    exact ⟨hz, (utf16_fix_iff _).1 h⟩
  · rintro ⟨hz, h⟩
    rw [hx hz, (utf16_fix_iff _).2 h]

/-- C30 fails: a device control is read back as a form feed, and a NUL before a
digit is not legal in strict code. -/
theorem C30_js_negative :
    decode jsReader ("\x12".toList.flatMap escJs) = some [12] ∧
    decode jsReader ("\x001".toList.flatMap escJs) = none := by decide +kernel

example : NulsApart "a\"\x00x\n\u0085é😀".toList ∧
    decode jsReader (("a\"\x00x\n\u0085é😀".toList).flatMap escJs) =
      some ("a\"\x00x\n\u0085é😀".toList.flatMap utf16) := by
  refine ⟨?_, by decide +kernel⟩
  intro p d r h
  have h' : "a\"\x00x\n\u0085é😀".toList = ['a', '"'] ++ '\x00' :: 'x' :: "\n\u0085é😀".toList := by
    decide +kernel
  rw [h'] at h
  rcases p with _ | ⟨a, _ | ⟨b, _ | ⟨c, p⟩⟩⟩
  · simp at h
  · simp at h
  · simp at h; rw [← h.2.2.1]; decide
  · simp at h
    have h2 := congrArg (fun l => '\x00' ∈ l) h.2.2.2
    simp at h2

/-- C31. What Dart reads back, as UTF-16: the text, with U+0012 turned into a form
feed and U+0011 into a vertical tab; no interpolation is opened. -/
theorem C31_dart_exact_partial (li : ι → List Str) (cfg : Config) (s : ItemStr) :
    ∃ body, toString (dartLang li) cfg [.openQuote false, .literal s, .closeQuote] =
        some ('"' :: (body ++ ['"'])) ∧
      decode dartReader body = some (s.text.flatMap fun c => utf16
        (if c = '\x12' then '\x0c' else if c = '\x11' then '\x0b' else c)) := by
  refine ⟨s.text.flatMap escDart, by rw [toString_quoted]; rfl, ?_⟩
  exact decode_flatMap dartReader escDart (fun c => utf16 (cFamilyFix c)) escDart_ne s.text
    (fun p c r _ => dart_step c _)

/-- C31. A text quoted for Dart is read back unchanged exactly if it contains
neither U+0011 nor U+0012. -/
theorem C31_dart_partial (li : ι → List Str) (cfg : Config) (s : ItemStr) :
    (∃ body, toString (dartLang li) cfg [.openQuote false, .literal s, .closeQuote] =
        some ('"' :: (body ++ ['"'])) ∧
      decode dartReader body = some (s.text.flatMap utf16)) ↔ ∀ c ∈ s.text, c ≠ '\x12' ∧ c ≠ '\x11' := by
  have hb : toString (dartLang li) cfg [.openQuote false, .literal s, .closeQuote] =
      some ('"' :: (s.text.flatMap escDart ++ ['"'])) := by rw [toString_quoted]; rfl
  rw [body_iff hb, decode_flatMap dartReader escDart (fun c => utf16 (cFamilyFix c)) escDart_ne s.text
    (fun p c r _ => dart_step c _), Option.some.injEq]
  exact utf16_fix_iff _

/-- C31 fails for a device control. -/
theorem C31_dart_negative : decode dartReader ("\x11".toList.flatMap escDart) = some [11] := by
  decide +kernel

example : decode dartReader (("a$b${c}\"\\\x01\u0085é😀".toList).flatMap escDart) =
    some ("a$b${c}\"\\\x01\u0085é😀".toList.flatMap utf16) := by decide +kernel

/-- C34. What C# reads back, as UTF-16, for texts in which no control character
written as `\xHH` is followed by a hexadecimal digit: the text, with U+0012 turned into a form feed
and U+0011 into a vertical tab. -/
theorem C34_csharp_exact_partial (li : ι → List Str) (cfg : Config) (s : ItemStr)
    (hx : ControlsApart s.text) :
    ∃ body, toString (csharpLang li) cfg [.openQuote false, .literal s, .closeQuote] =
        some ('"' :: (body ++ ['"'])) ∧
      decode csharpReader body = some (s.text.flatMap fun c => utf16
        (if c = '\x12' then '\x0c' else if c = '\x11' then '\x0b' else c)) := by
  refine ⟨_, toString_base escCFamily li cfg s, ?_⟩
  exact decode_flatMap csharpReader escCFamily (fun c => utf16 (cFamilyFix c)) escCFamily_ne s.text
    (fun p c r h => csharp_step c _ fun hc => noHex_flatMap s.text p r c hx h hc)

/-- C34. A text quoted for C# is read back unchanged exactly if no control
character of it that is written as `\xHH` is followed by a hexadecimal digit and
it contains neither U+0011 nor U+0012. -/
theorem C34_csharp_partial (li : ι → List Str) (cfg : Config) (s : ItemStr) :
    (∃ body, toString (csharpLang li) cfg [.openQuote false, .literal s, .closeQuote] =
        some ('"' :: (body ++ ['"'])) ∧
      decode csharpReader body = some (s.text.flatMap utf16)) ↔
    ControlsApart s.text ∧ ∀ c ∈ s.text, c ≠ '\x12' ∧ c ≠ '\x11' := by
  rw [show csharpLang li = baseLang escCFamily li from rfl, body_iff (toString_base escCFamily li cfg s)]
  have hd : ControlsApart s.text → decode csharpReader (s.text.flatMap escCFamily) =
      some (s.text.flatMap fun c => utf16 (cFamilyFix c)) := fun hx =>
    decode_flatMap csharpReader escCFamily (fun c => utf16 (cFamilyFix c)) escCFamily_ne s.text
      (fun p c r h => csharp_step c _ fun hc => noHex_flatMap s.text p r c hx h hc)
  constructor
  · intro h
    have hx := csharp_reads_only _ h
    rw [hd hx, Option.some.injEq] at h
    exact ⟨hx, (utf16_fix_iff _).1 h⟩
  · rintro ⟨hx, h⟩
    rw [hd hx, (utf16_fix_iff _).2 h]

/-- C34 fails: an escaped control character swallows a digit that follows. -/
theorem C34_csharp_negative : decode csharpReader ("\x011".toList.flatMap escCFamily) = some [0x11] := by
  decide +kernel

example : ControlsApart "\x01z\x1f".toList ∧
    decode csharpReader ("\x01z\x1fé😀\n1".toList.flatMap escCFamily) =
      some ("\x01z\x1fé😀\n1".toList.flatMap utf16) := by
  refine ⟨?_, by decide +kernel⟩
  intro p c d r h hc
  rcases p with _ | ⟨a, _ | ⟨b, _ | ⟨e, p⟩⟩⟩
  · simp at h; rw [← h.2.1]; decide
  · simp at h; rw [← h.2.1] at hc; exact absurd hc (by decide)
  · simp at h
  · simp at h

/-! ## Bytes -/

/-- C32. What Go reads back, as bytes, for texts without an apostrophe: the text,
with U+0012 turned into a form feed and U+0011 into a vertical tab. -/
theorem C32_go_exact_partial (li : ι → List Str) (cfg : Config) (s : ItemStr)
    (hq : '\'' ∉ s.text) :
    ∃ body, toString (goLang li) cfg [.openQuote false, .literal s, .closeQuote] =
        some ('"' :: (body ++ ['"'])) ∧
      decode goReader body = some (s.text.flatMap fun c => bytes
        (if c = '\x12' then '\x0c' else if c = '\x11' then '\x0b' else c)) := by
  refine ⟨_, toString_base escCFamily li cfg s, ?_⟩
  exact decode_flatMap goReader escCFamily (fun c => bytes (cFamilyFix c)) escCFamily_ne s.text
    (fun p c r h => go_step c _ fun hc => hq (by rw [h, hc]; simp))

/-- C32. A text quoted for Go is read back unchanged exactly if it contains no
apostrophe, no U+0011 and no U+0012. -/
theorem C32_go_partial (li : ι → List Str) (cfg : Config) (s : ItemStr) :
    (∃ body, toString (goLang li) cfg [.openQuote false, .literal s, .closeQuote] =
        some ('"' :: (body ++ ['"'])) ∧
      decode goReader body = some (s.text.flatMap bytes)) ↔
    '\'' ∉ s.text ∧ ∀ c ∈ s.text, c ≠ '\x12' ∧ c ≠ '\x11' := by
  rw [show goLang li = baseLang escCFamily li from rfl, body_iff (toString_base escCFamily li cfg s)]
  have hd : '\'' ∉ s.text → decode goReader (s.text.flatMap escCFamily) =
      some (s.text.flatMap fun c => bytes (cFamilyFix c)) := fun hq =>
    decode_flatMap goReader escCFamily (fun c => bytes (cFamilyFix c)) escCFamily_ne s.text
      (fun p c r h => go_step c _ fun hc => hq (by rw [h, hc]; simp))
  constructor
  · intro h
    have hq := go_reads_only _ _ h
    rw [hd hq, Option.some.injEq] at h
    exact ⟨hq, (bytes_fix_iff _).1 h⟩
  · rintro ⟨hq, h⟩
    rw [hd hq, (bytes_fix_iff _).2 h]

/-- C32 fails: an apostrophe is written as an escape that Go does not allow in a
string. -/
theorem C32_go_negative : decode goReader ("it's".toList.flatMap escCFamily) = none := by
  decide +kernel

example : decode goReader (("a\"\\\n\x07\x01b\u0085é😀".toList).flatMap escCFamily) =
    some ("a\"\\\n\x07\x01b\u0085é😀".toList.flatMap bytes) := by decide +kernel

/-- C33. What C reads back, as bytes, for texts without U+0080 to U+009F in which
no control character written as `\xHH` is followed by a hexadecimal digit: the
text, with U+0012 turned into a form feed and U+0011 into a vertical tab. -/
theorem C33_c_exact_partial (li : ι → List Str) (cfg : Config) (s : ItemStr)
    (hx : ControlsApart s.text) (hc : ∀ c ∈ s.text, control c = true → c.toNat < 0x80) :
    ∃ body, toString (cLang li) cfg [.openQuote false, .literal s, .closeQuote] =
        some ('"' :: (body ++ ['"'])) ∧
      decode cReader body = some (s.text.flatMap fun c => bytes
        (if c = '\x12' then '\x0c' else if c = '\x11' then '\x0b' else c)) := by
  refine ⟨_, toString_base escCFamily li cfg s, ?_⟩
  exact decode_flatMap cReader escCFamily (fun c => bytes (cFamilyFix c)) escCFamily_ne s.text
    (fun p c r h => c_step c _ (hc c (by rw [h]; simp)) fun hcon => noHex_flatMap s.text p r c hx h hcon)

/-- C33. A text quoted for C is read back unchanged exactly if it contains none of
U+0011, U+0012 and U+0080 to U+009F and no control character of it that is written
as `\xHH` is followed by a hexadecimal digit. -/
theorem C33_c_partial (li : ι → List Str) (cfg : Config) (s : ItemStr) :
    (∃ body, toString (cLang li) cfg [.openQuote false, .literal s, .closeQuote] =
        some ('"' :: (body ++ ['"'])) ∧
      decode cReader body = some (s.text.flatMap bytes)) ↔
    ControlsApart s.text ∧ (∀ c ∈ s.text, control c = true → c.toNat < 0x80) ∧
      ∀ c ∈ s.text, c ≠ '\x12' ∧ c ≠ '\x11' := by
  rw [show cLang li = baseLang escCFamily li from rfl, body_iff (toString_base escCFamily li cfg s)]
  have hd : ControlsApart s.text → (∀ c ∈ s.text, control c = true → c.toNat < 0x80) →
      decode cReader (s.text.flatMap escCFamily) =
      some (s.text.flatMap fun c => bytes (cFamilyFix c)) := fun hx hc =>
    decode_flatMap cReader escCFamily (fun c => bytes (cFamilyFix c)) escCFamily_ne s.text
      (fun p c r h => c_step c _ (hc c (by rw [h]; simp)) fun hcon => noHex_flatMap s.text p r c hx h hcon)
  constructor
  · intro h
    obtain ⟨hx, hc⟩ := c_reads_only _ h
    rw [hd hx hc, Option.some.injEq] at h
    exact ⟨hx, hc, (bytes_fix_iff _).1 h⟩
  · rintro ⟨hx, hc, h⟩
    rw [hd hx hc, (bytes_fix_iff _).2 h]

/-- C33 fails: an escaped control character swallows a digit that follows (giving
another value, or a value too large), and universal character names below A0 are
not legal. -/
theorem C33_c_negative :
    decode cReader ("\x01a".toList.flatMap escCFamily) = some [0x1a] ∧
    decode cReader ("\x01ab".toList.flatMap escCFamily) = none ∧
    decode cReader ("\u0085".toList.flatMap escCFamily) = none := by decide +kernel

example : decode cReader (("a\"'\\\nb\x07f\x01zé😀".toList).flatMap escCFamily) =
    some ("a\"'\\\nb\x07f\x01zé😀".toList.flatMap bytes) := by decide +kernel

/-- C35. A text quoted for Nix is read back unchanged exactly if it consists of
printable ASCII characters, line feeds, carriage returns and tabs and has no `${`
that opens an antiquotation (as the second dollar sign of a pair does not). -/
theorem C35_nix_partial (li : ι → List Str) (cfg : Config) (s : ItemStr) :
    (∃ body, toString (nixLang li) cfg [.openQuote false, .literal s, .closeQuote] =
        some ('"' :: (body ++ ['"'])) ∧
      decode nixReader body = some (s.text.flatMap bytes)) ↔
    (∀ c ∈ s.text, (32 ≤ c.toNat ∧ c.toNat < 127) ∨ c = '\n' ∨ c = '\r' ∨ c = '\t') ∧
      opensCode s.text = false := by
  have hsafe : ∀ c, nixSafe c = true ↔ (32 ≤ c.toNat ∧ c.toNat < 127) ∨ c = '\n' ∨ c = '\r' ∨ c = '\t' := by
    intro c
    simp [nixSafe, or_assoc]
  rw [show nixLang li = baseLang escCFamily li from rfl, body_iff (toString_base escCFamily li cfg s), nix_iff]
  simp only [hsafe]

/-- C35: if a text does not open an antiquotation, Nix reads the escapes it does
not know as what stands behind their backslash. -/
theorem C35_nix_exact_partial (li : ι → List Str) (cfg : Config) (s : ItemStr) :
    ∃ body, toString (nixLang li) cfg [.openQuote false, .literal s, .closeQuote] =
        some ('"' :: (body ++ ['"'])) ∧
      decode nixReader body =
        if opensCode s.text then none
        else some (s.text.flatMap fun c =>
          if (32 ≤ c.toNat ∧ c.toNat < 127) ∨ c = '\n' ∨ c = '\r' ∨ c = '\t' then bytes c
          else ((escCFamily c).drop 1).flatMap bytes) := by
  refine ⟨_, toString_base escCFamily li cfg s, ?_⟩
  rw [nix_decode]
  have : nixVal = fun c =>
      if (32 ≤ c.toNat ∧ c.toNat < 127) ∨ c = '\n' ∨ c = '\r' ∨ c = '\t' then bytes c
      else ((escCFamily c).drop 1).flatMap bytes := by
    funext c
    unfold nixVal
    simp [nixSafe, or_assoc]
  rw [this]

/-- C35: a text with no `${` opens nothing. -/
theorem C35_no_dollar_partial (s : Str) (hd : ∀ p r, s ≠ p ++ '$' :: '{' :: r) : opensCode s = false := by
  induction s using opensCode.induct with
  | case1 r => exact absurd rfl (hd [] r)
  | case2 r ih => rw [opensCode]; exact ih fun p r' h => hd ('$' :: '$' :: p) r' (by rw [h]; rfl)
  | case3 c r h1 h2 ih =>
    rw [opensCode.eq_3 _ _ h1 h2]
    exact ih fun p r' h => hd (c :: p) r' (by rw [h]; rfl)
  | case4 => rfl

/-- C35 fails: an antiquotation is not escaped, and Nix does not know the escapes
written for other characters. -/
theorem C35_nix_negative :
    decode nixReader ("${x}".toList.flatMap escCFamily) = none ∧
    decode nixReader ("é".toList.flatMap escCFamily) = some ("u00e9".toList.flatMap bytes) := by
  decide +kernel

example : decode nixReader (("a\"'\\\n$${b}\t$x".toList).flatMap escCFamily) =
      some ("a\"'\\\n$${b}\t$x".toList.flatMap bytes) ∧
    opensCode "a\"'\\\n$${b}\t$x".toList = false ∧ opensCode "$$${b}".toList = true := by decide +kernel

/-! ## Delimiters -/

/-- C36. In every built-in language, whatever text `s` is quoted and whatever
`rest` follows, a lexer started after the opening quote finds the end of the
literal exactly at the closing quote that was written, and meets no raw line
break before. -/
theorem C36_no_breakout (L : Lang ι) (li : ι → List Str)
    (hL : L ∈ [rustLang li, swiftLang li, pythonLang li, javaLang li, cLang li, csharpLang li,
      goLang li, nixLang li, jsLang li, dartLang li])
    (cfg : Config) (s : ItemStr) (rest : Str) :
    ∃ body, toString L cfg [.openQuote false, .literal s, .closeQuote] =
        some ('"' :: (body ++ ['"'])) ∧
      closeAt (body ++ '"' :: rest) = some (body, rest) := by
  have hb : ∀ esc : Char → Str, (∀ c, Skipped (esc c)) → ∃ body,
      toString (baseLang esc li) cfg [.openQuote false, .literal s, .closeQuote] =
        some ('"' :: (body ++ ['"'])) ∧
      closeAt (body ++ '"' :: rest) = some (body, rest) := fun esc h =>
    ⟨_, toString_base esc li cfg s, closeAt_skipped (.flatMap h _) _⟩
  simp only [List.mem_cons, List.not_mem_nil, or_false] at hL
  rcases hL with rfl | rfl | rfl | rfl | rfl | rfl | rfl | rfl | rfl | rfl
  · exact hb _ skipped_rust
  · exact hb _ skipped_swift
  · exact hb _ skipped_cFamily
  · exact hb _ skipped_java
  · exact hb _ skipped_cFamily
  · exact hb _ skipped_cFamily
  · exact hb _ skipped_cFamily
  · exact hb _ skipped_cFamily
  · exact ⟨s.text.flatMap escJs, by rw [toString_quoted]; rfl, closeAt_skipped (.flatMap skipped_js _) _⟩
  · exact ⟨s.text.flatMap escDart, by rw [toString_quoted]; rfl,
      closeAt_skipped (.flatMap skipped_dart _) _⟩

example : closeAt ("a\\\"b\\\\\" + \"c\"".toList) = some ("a\\\"b\\\\".toList, " + \"c\"".toList) := by
  decide +kernel

/-- C37. Constant text in a JavaScript template without backtick and without `${`
(and, as in C30, no NUL before a digit): what is read back is the text with
U+0012 turned into a form feed and U+0011 into a vertical tab. -/
theorem C37_template_exact_partial (li : ι → List Str) (cfg : Config) (s : ItemStr)
    (hz : NulsApart s.text) (hb : '`' ∉ s.text) (hd : ∀ p r, s.text ≠ p ++ '$' :: '{' :: r) :
    ∃ body, toString (jsLang li) cfg [.openQuote true, .literal s, .closeQuote] =
        some ('`' :: (body ++ ['`'])) ∧
      decode templateReader body = some (s.text.flatMap fun c => utf16
        (if c = '\x12' then '\x0c' else if c = '\x11' then '\x0b' else c)) := by
  refine ⟨s.text.flatMap escJs, by rw [toString_quoted]; rfl, ?_⟩
  refine decode_flatMap templateReader escJs (fun c => utf16 (cFamilyFix c)) escJs_ne s.text
    (fun p c r h => template_step c _ (fun hc => noDigit_flatMap s.text p r hz (by rw [h, hc]))
      (fun hc => hb (by rw [h, hc]; simp)) (fun hc hr => ?_))
  rcases head_flatMap escJs_ne escJs_head r _ hr with h' | h'
  · exact absurd h' (by decide)
  · cases r with
    | nil => simp at h'
    | cons x r =>
      simp only [List.head?_cons, Option.some.injEq] at h'
      exact hd p r (by rw [h, hc, h'])

/-- C37. Constant text in a JavaScript template is read back unchanged exactly if
it contains no backtick, no `${`, no NUL before a digit and neither U+0011 nor
U+0012. -/
theorem C37_template_partial (li : ι → List Str) (cfg : Config) (s : ItemStr) :
    (∃ body, toString (jsLang li) cfg [.openQuote true, .literal s, .closeQuote] =
        some ('`' :: (body ++ ['`'])) ∧
      decode templateReader body = some (s.text.flatMap utf16)) ↔
    (NulsApart s.text ∧ '`' ∉ s.text ∧ ∀ p r, s.text ≠ p ++ '$' :: '{' :: r) ∧
      ∀ c ∈ s.text, c ≠ '\x12' ∧ c ≠ '\x11' := by
  have hb : toString (jsLang li) cfg [.openQuote true, .literal s, .closeQuote] =
      some ('`' :: (s.text.flatMap escJs ++ ['`'])) := by rw [toString_quoted]; rfl
  have hx : (NulsApart s.text ∧ '`' ∉ s.text ∧ ∀ p r, s.text ≠ p ++ '$' :: '{' :: r) →
      decode templateReader (s.text.flatMap escJs) =
        some (s.text.flatMap fun c => utf16 (cFamilyFix c)) := by
    rintro ⟨h1, h2, h3⟩
    exact (body_iff hb _ _).1 (C37_template_exact_partial li cfg s h1 h2 h3)
  rw [body_iff hb]
  constructor
  · intro h
    have hz := template_reads_only _ _ h
    rw [hx hz, Option.some.injEq] at h
    exact ⟨hz, (utf16_fix_iff _).1 h⟩
  · rintro ⟨hz, h⟩
    rw [hx hz, (utf16_fix_iff _).2 h]

/-- C37 fails: a backtick closes the template and `${` opens a substitution. -/
theorem C37_template_negative :
    toString (jsLang (fun s : Str => [s])) cfg2 [.openQuote true, lit "a`b", .closeQuote] =
      some "`a`b`".toList ∧
    toString (jsLang (fun s : Str => [s])) cfg2 [.openQuote true, lit "${x}", .closeQuote] =
      some "`${x}`".toList ∧
    decode templateReader "a`b".toList = none ∧ decode templateReader "${x}".toList = none := by
  decide +kernel

example : decode templateReader (("a$b{\"\n\\".toList).flatMap escJs) =
    some ("a$b{\"\n\\".toList.flatMap utf16) := by decide +kernel

/-! ## Strings in strings -/

/-- C22. A string quoted inside a string: the outer quoting escapes the inner
source text, which is the text between quotes *as it is*. -/
theorem C22_nested_exact_partial (esc : Char → Str) (li : ι → List Str) (cfg : Config) (s : ItemStr) :
    toString (baseLang esc li) cfg [.openQuote false, .openQuote false, .literal s, .closeQuote,
        .closeQuote] =
      some ('"' :: (('"' :: (s.text ++ ['"'])).flatMap esc ++ ['"'])) := by
  have h := C13_layout_quotes (baseLang esc li) cfg
    (.quote false (.inner [.literal s] .nil) .nil) rfl
  have : (Code.quote false (.inner [.literal s] .nil) .nil : Code ι).items =
    [.openQuote false, .openQuote false, .literal s, .closeQuote, .closeQuote] := rfl
  rw [this] at h
  rw [h]
  simp only [Code.acts, Body.acts, List.append_nil, List.flatMap_cons, List.flatMap_nil, plainActs]
  have e : ∀ s : Str, [Act.text s] = [s].map Act.text := fun s => rfl
  rw [e, ← List.map_append, ← List.map_append, render_texts, ← List.map_append, ← List.map_append,
    render_texts]
  simp [baseLang, List.flatMap]

/-- C22 for Rust: decoding once gives `"s"`; that is a literal for `s` exactly if
`s` has no character that needs escaping. -/
theorem C22_nested_rust_partial (li : ι → List Str) (cfg : Config) (s : ItemStr) :
    ∃ body, toString (rustLang li) cfg [.openQuote false, .openQuote false, .literal s, .closeQuote,
        .closeQuote] = some ('"' :: (body ++ ['"'])) ∧
      decode rustReader body = some ('"' :: (s.text ++ ['"'])) ∧
      (decode rustReader s.text = some s.text ↔ ∀ c ∈ s.text, c ≠ '"' ∧ c ≠ '\\' ∧ c ≠ '\r') := by
  refine ⟨_, C22_nested_exact_partial escRust li cfg s, ?_, fun h => (rust_plain h).2 rfl, ?_⟩
  · rw [decode_flatMap rustReader escRust (fun c => [c]) escRust_ne _
      (fun p c r _ => rust_step c _), flatMap_single]
    simp
  · intro hs
    have h := decode_flatMap rustReader (fun c => [c]) (fun c => [c]) (by simp) s.text
      (fun p c r h => by
        have := hs c (by rw [h]; simp)
        show rustReader (c :: _) = _
        unfold rustReader
        simp only
        rw [if_neg this.2.1, if_neg (by simp [this])]
        rfl)
    rw [flatMap_single] at h
    simpa using h

/-- C22 fails: a quote in the text is not escaped for the inner string, so the
decoded text is not a literal (here the decoded text is `"""`). -/
theorem C22_nested_negative :
    toString (rustLang (fun s : Str => [s])) cfg2 [.openQuote false, .openQuote false, lit "\"",
      .closeQuote, .closeQuote] = some "\"\\\"\\\"\\\"\"".toList ∧
    decode rustReader "\\\"\\\"\\\"".toList = some "\"\"\"".toList ∧
    closeAt "\"\"".toList = some ([], "\"".toList) := by
  decide +kernel

/-! ## Splitting -/

theorem homQuote_of_map (L : Lang ι) (esc : Char → Str) (h : ∀ s, L.writeQuoted s = s.map esc) :
    HomQuote L := by
  intro a b
  simp [h]

/-- C38. For every language escaping character by character: splitting any
literals of a stream (inside or outside of strings, at any depth) into any number
of consecutive literals changes neither the text nor the lines. Only where the
language treats a single interpolated literal specially (Dart), literals right
after the start of an evaluation must be left alone. -/
theorem C38_split (L : Lang ι) (esc : Char → Str) (hQ : ∀ s, L.writeQuoted s = s.map esc)
    (cfg : Config) (x y : List (Item ι))
    (h : SplitOf (∀ s, L.evalLiteral s = L.startEval ++ [s] ++ L.endEval) false x y) :
    toString L cfg x = toString L cfg y ∧ toVec L cfg x = toVec L cfg y := by
  obtain ⟨h1, h2⟩ := resolveItems_split L (homQuote_of_map L esc hQ) _ id cfg x y h
  rw [toString_eq, toString_eq, toVec_eq, toVec_eq, h2, ← renderActs_eq, ← renderActs_eq,
    renderActs_explode h1, ← vecActs_explode, h1, vecActs_explode]
  exact ⟨rfl, rfl⟩

/-- C38: all built-in languages escape character by character. -/
theorem C38_builtin (L : Lang ι) (li : ι → List Str)
    (hL : L ∈ [rustLang li, swiftLang li, pythonLang li, javaLang li, cLang li, csharpLang li,
      goLang li, nixLang li, jsLang li, dartLang li]) (cfg : Config) (s : ItemStr) (l : List ItemStr)
    (t : ItemStr) (ht : t.text = s.text ++ (l.map ItemStr.text).flatten) (ev : Bool) :
    toString L cfg (.openQuote ev :: (.literal s :: l.map .literal ++ [.closeQuote])) =
      toString L cfg [.openQuote ev, .literal t, .closeQuote] := by
  have hq : ∃ esc : Char → Str, ∀ s, L.writeQuoted s = s.map esc := by
    simp only [List.mem_cons, List.not_mem_nil, or_false] at hL
    rcases hL with rfl | rfl | rfl | rfl | rfl | rfl | rfl | rfl | rfl | rfl <;>
      exact ⟨_, fun _ => rfl⟩
  obtain ⟨esc, hq⟩ := hq
  exact (C38_split L esc hq cfg _ _
    (.same _ (.split s l t (by simp [opensEval]) ht (.same _ .nil)))).1

/-- C38: in all built-in languages but Dart, any literals may be split, including
a literal standing alone in an evaluation. -/
theorem C38_builtin_eval (L : Lang ι) (li : ι → List Str)
    (hL : L ∈ [rustLang li, swiftLang li, pythonLang li, javaLang li, cLang li, csharpLang li,
      goLang li, nixLang li, jsLang li]) (cfg : Config) (x y : List (Item ι))
    (h : SplitOf True false x y) :
    toString L cfg x = toString L cfg y ∧ toVec L cfg x = toVec L cfg y := by
  simp only [List.mem_cons, List.not_mem_nil, or_false] at hL
  have hq : (∃ esc : Char → Str, ∀ s, L.writeQuoted s = s.map esc) ∧
      ∀ s, L.evalLiteral s = L.startEval ++ [s] ++ L.endEval := by
    rcases hL with rfl | rfl | rfl | rfl | rfl | rfl | rfl | rfl | rfl <;>
      exact ⟨⟨_, fun _ => rfl⟩, fun _ => rfl⟩
  obtain ⟨⟨esc, hq⟩, he⟩ := hq
  refine C38_split L esc hq cfg x y ?_
  rwa [eq_true he]

/-- C38: the condition for Dart is needed. -/
theorem C38_dart_negative :
    toString (dartLang (fun s : Str => [s])) cfg2 [.openQuote true, .openEval, lit "ab", .closeEval,
      .closeQuote] = some "\"$ab\"".toList ∧
    toString (dartLang (fun s : Str => [s])) cfg2 [.openQuote true, .openEval, lit "a", lit "b",
      .closeEval, .closeQuote] = some "\"${ab}\"".toList := by
  decide +kernel

example : SplitOf False false ([.openQuote false, lit "a\"", lit "", lit "b", .space, lit "c",
      .closeQuote] : List (Item Str)) [.openQuote false, lit "a\"b", .space, lit "c", .closeQuote] :=
  .same _ (.split (.static "a\"".toList) [.static [], .static ['b']] (.static "a\"b".toList)
    (by simp [opensEval]) rfl
    (.same _ (.same _ (.same _ .nil))))

end Genco.Props
