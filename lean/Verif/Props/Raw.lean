import Verif.Proofs.Raw
import Verif.Props.Found

/-!
# A string quoted inside a string, in every language (C22)
-/

set_option autoImplicit false

namespace Genco.Props

open Genco Spec Tokens

variable {ι : Type}

/-- C22. In every language, a string quoted inside a string is written like the string whose content is
the text between raw quotes. -/
theorem C22_nested_any (L : Lang ι) (li : ι → List Str)
    (hL : L ∈ [rustLang li, swiftLang li, pythonLang li, javaLang li, cLang li, csharpLang li,
      goLang li, nixLang li, jsLang li, dartLang li]) (cfg : Config) (s : ItemStr) :
    toString L cfg [.openQuote false, .openQuote false, .literal s, .closeQuote, .closeQuote] =
      toString L cfg [.openQuote false, .literal (.box ('"' :: (s.text ++ ['"']))), .closeQuote] := by
  obtain ⟨⟨esc, hQ⟩, rfl⟩ := quotes_builtin L li hL
  rw [quotes_toString L esc hQ cfg]
  have h := C13_layout_quotes L cfg (.quote false (.inner [.literal s] .nil) .nil) rfl
  have : (Code.quote false (.inner [.literal s] .nil) .nil : Code ι).items =
    [.openQuote false, .openQuote false, .literal s, .closeQuote, .closeQuote] := rfl
  rw [this] at h
  rw [h]
  simp only [Code.acts, Body.acts, List.append_nil, List.flatMap_cons, List.flatMap_nil, plainActs]
  have e : ∀ s : Str, [Act.text s] = [s].map Act.text := fun s => rfl
  rw [e, ← List.map_append, ← List.map_append, render_texts, ← List.map_append, ← List.map_append,
    render_texts]
  simp only [List.flatten_append, hQ.opens, hQ.closes, hQ.escapes]
  simp [ItemStr.text, List.flatMap]

theorem nested_iff {α : Type} {L : Lang ι} {cfg : Config} {s : ItemStr} {dec : Str → Option α} {f : Str → α}
    {P : Prop} {R : Prop}
    (hn : toString L cfg [.openQuote false, .openQuote false, .literal s, .closeQuote, .closeQuote] =
      toString L cfg [.openQuote false, .literal (.box ('"' :: (s.text ++ ['"']))), .closeQuote])
    (hP : (∃ body, toString L cfg [.openQuote false, .literal (.box ('"' :: (s.text ++ ['"']))), .closeQuote] =
      some ('"' :: (body ++ ['"'])) ∧ dec body = some (f ('"' :: (s.text ++ ['"'])))) ↔ P)
    (hR : dec s.text = some (f s.text) ↔ R) :
    (∃ body, toString L cfg [.openQuote false, .openQuote false, .literal s, .closeQuote, .closeQuote] =
        some ('"' :: (body ++ ['"'])) ∧ dec body = some (f ('"' :: (s.text ++ ['"']))) ∧
      dec s.text = some (f s.text)) ↔ P ∧ R := by
  rw [hn, ← hP, ← hR]
  constructor
  · rintro ⟨body, h1, h2, h3⟩
    exact ⟨⟨body, h1, h2⟩, h3⟩
  · rintro ⟨⟨body, h1, h2⟩, h3⟩
    exact ⟨body, h1, h2, h3⟩

theorem controls_quoted (s : Str) : ControlsApart ('"' :: (s ++ ['"'])) ↔ ControlsApart s := by
  constructor
  · intro h p c d r e hc
    exact h ('"' :: p) c d (r ++ ['"']) (by simp [e]) hc
  · intro h p c d r e hc
    cases p with
    | nil =>
      simp only [List.nil_append, List.cons.injEq] at e
      rw [← e.1] at hc
      exact absurd hc (by decide +kernel)
    | cons x p =>
      simp only [List.cons_append, List.cons.injEq] at e
      rcases List.eq_nil_or_concat r with rfl | ⟨r', y, rfl⟩
      · have h2 : s ++ ['"'] = (p ++ [c]) ++ [d] := by simpa using e.2
        have := (List.append_inj' h2 rfl).2
        simp only [List.cons.injEq, and_true] at this
        rw [← this]
        decide +kernel
      · have h2 : s ++ ['"'] = (p ++ c :: d :: r') ++ [y] := by simpa using e.2
        exact h p c d r' (List.append_inj' h2 rfl).1 hc

theorem nuls_quoted (s : Str) : NulsApart ('"' :: (s ++ ['"'])) ↔ NulsApart s := by
  constructor
  · intro h p d r e
    exact h ('"' :: p) d (r ++ ['"']) (by simp [e])
  · intro h p d r e
    cases p with
    | nil =>
      simp only [List.nil_append, List.cons.injEq] at e
      exact absurd e.1 (by decide)
    | cons x p =>
      simp only [List.cons_append, List.cons.injEq] at e
      rcases List.eq_nil_or_concat r with rfl | ⟨r', y, rfl⟩
      · have h2 : s ++ ['"'] = (p ++ ['\x00']) ++ [d] := by simpa using e.2
        have := (List.append_inj' h2 rfl).2
        simp only [List.cons.injEq, and_true] at this
        rw [← this]
        decide +kernel
      · have h2 : s ++ ['"'] = (p ++ '\x00' :: d :: r') ++ [y] := by simpa using e.2
        exact h p d r' (List.append_inj' h2 rfl).1

theorem opensCode_quoted (s : Str) : opensCode ('"' :: (s ++ ['"'])) = opensCode s := by
  rw [opensCode]
  · induction s using opensCode.induct with
    | case1 r => rfl
    | case2 r ih => rw [List.cons_append, List.cons_append, opensCode, opensCode]; exact ih
    | case3 c r g1 g2 ih =>
      rw [List.cons_append, opensCode, opensCode, ih]
      · exact g1
      · exact g2
      · intro t hc e
        cases r with
        | nil => simp at e
        | cons x r => simp only [List.cons_append, List.cons.injEq] at e; exact g1 r hc (by rw [e.1])
      · intro t hc e
        cases r with
        | nil => simp at e
        | cons x r => simp only [List.cons_append, List.cons.injEq] at e; exact g2 r hc (by rw [e.1])
    | case4 => rfl
  · intro r h _; exact absurd h (by decide)
  · intro r h _; exact absurd h (by decide)

theorem forall_quoted {P : Char → Prop} (s : Str) (h : P '"') : (∀ c ∈ '"' :: (s ++ ['"']), P c) ↔ ∀ c ∈ s, P c := by
  simp [h, or_imp, forall_and]

theorem text_box (t : Str) : (ItemStr.box t).text = t := rfl

theorem flip_if {α : Type} {P : Prop} [Decidable P] {q : Bool} {x : Option α} (h : q = true ↔ ¬ P) :
    (if P then none else x) = if q = true then x else none := by
  by_cases hp : P
  · rw [if_pos hp, if_neg (fun hq => h.mp hq hp)]
  · rw [if_neg hp, if_pos (h.mpr hp)]

theorem and_forall {P Q R : Char → Prop} {s : Str} (h : ∀ c, R c ↔ P c ∧ Q c) :
    ((∀ c ∈ s, P c) ∧ ∀ c ∈ s, Q c) ↔ ∀ c ∈ s, R c := by
  simp only [h]
  exact ⟨fun ⟨a, b⟩ c hc => ⟨a c hc, b c hc⟩, fun h => ⟨fun c hc => (h c hc).1, fun c hc => (h c hc).2⟩⟩

/-- C22 in Swift: decoding once gives the text between quotes, and that is a literal for the text, exactly under this condition. -/
theorem C22_swift_partial (li : ι → List Str) (cfg : Config) (s : ItemStr) :
    (∃ body, toString (swiftLang li) cfg [.openQuote false, .openQuote false, .literal s, .closeQuote,
        .closeQuote] = some ('"' :: (body ++ ['"'])) ∧
      decode swiftReader body = some (('"' :: (s.text ++ ['"']))) ∧
      decode swiftReader s.text = some (s.text)) ↔
    ∀ c ∈ s.text, c ≠ '\\' ∧ c ≠ '"' ∧ c ≠ '\n' ∧ c ≠ '\r' := by
  have hraw := raw_iff swiftReader (fun c => [c]) (fun c => decide (c ≠ '"' ∧ c ≠ '\n' ∧ c ≠ '\r')) (single_len)
    (fun c r h => by
      simp only [swiftReader]
      rw [if_neg h]
      exact flip_if (by simp only [decide_eq_true_eq, not_or, ne_eq])) swiftEscape (fun _ => rfl) short_swift s.text
  rw [flatMap_single, List.map_id'] at hraw
  simp only [decide_eq_true_eq] at hraw
  rw [nested_iff (f := fun t => t) (P := True) (C22_nested_any _ li (by simp) cfg s)
    ⟨fun _ => trivial, fun _ => C27_swift li cfg (.box ('"' :: (s.text ++ ['"'])))⟩ hraw, true_and]

/-- C22 in Python. -/
theorem C22_python_partial (li : ι → List Str) (cfg : Config) (s : ItemStr) :
    (∃ body, toString (pythonLang li) cfg [.openQuote false, .openQuote false, .literal s, .closeQuote,
        .closeQuote] = some ('"' :: (body ++ ['"'])) ∧
      decode pythonReader body = some (('"' :: (s.text ++ ['"']))) ∧
      decode pythonReader s.text = some (s.text)) ↔
    ∀ c ∈ s.text, c ≠ '\x12' ∧ c ≠ '\x11' ∧ c ≠ '\\' ∧ c ≠ '"' ∧ c ≠ '\n' ∧ c ≠ '\r' := by
  have hraw := raw_iff pythonReader (fun c => [c]) (fun c => decide (c ≠ '"' ∧ c ≠ '\n' ∧ c ≠ '\r')) (single_len)
    (fun c r h => by
      simp only [pythonReader]
      rw [if_neg h]
      exact flip_if (by simp only [decide_eq_true_eq, not_or, ne_eq])) pythonEscape (fun _ => rfl) short_python s.text
  rw [flatMap_single, List.map_id'] at hraw
  simp only [decide_eq_true_eq] at hraw
  rw [nested_iff (f := fun t => t) (C22_nested_any _ li (by simp) cfg s)
    (C28_python_partial li cfg (.box ('"' :: (s.text ++ ['"'])))) hraw]
  simp only [text_box]
  rw [forall_quoted _ (by decide)]
  exact and_forall (fun c => by simp only [and_assoc])

/-- C22 in Java. -/
theorem C22_java_partial (li : ι → List Str) (cfg : Config) (s : ItemStr) :
    (∃ body, toString (javaLang li) cfg [.openQuote false, .openQuote false, .literal s, .closeQuote,
        .closeQuote] = some ('"' :: (body ++ ['"'])) ∧
      javaDecode body = some (('"' :: (s.text ++ ['"'])).flatMap utf16) ∧
      javaDecode s.text = some (s.text.flatMap utf16)) ↔
    ∀ c ∈ s.text, c ≠ '\x07' ∧ c ≠ '\x14' ∧ c ≠ '\\' ∧ c ≠ '"' ∧ c ≠ '\n' ∧ c ≠ '\r' := by
  rw [nested_iff (f := fun t => t.flatMap utf16) (C22_nested_any _ li (by simp) cfg s)
    (C29_java_partial li cfg (.box ('"' :: (s.text ++ ['"'])))) (java_raw s.text)]
  simp only [text_box]
  rw [forall_quoted _ (by decide)]
  exact and_forall (fun c => by simp only [and_assoc])

/-- C22 in JavaScript. -/
theorem C22_js_partial (li : ι → List Str) (cfg : Config) (s : ItemStr) :
    (∃ body, toString (jsLang li) cfg [.openQuote false, .openQuote false, .literal s, .closeQuote,
        .closeQuote] = some ('"' :: (body ++ ['"'])) ∧
      decode jsReader body = some (('"' :: (s.text ++ ['"'])).flatMap utf16) ∧
      decode jsReader s.text = some (s.text.flatMap utf16)) ↔
    NulsApart s.text ∧ ∀ c ∈ s.text, c ≠ '\x12' ∧ c ≠ '\x11' ∧ c ≠ '\\' ∧ c ≠ '"' ∧ c ≠ '\n' ∧ c ≠ '\r' := by
  have hraw := raw_iff jsReader utf16 (fun c => decide (c ≠ '"' ∧ c ≠ '\n' ∧ c ≠ '\r')) (fun c => (utf16_len c).1)
    (fun c r h => by
      simp only [jsReader]
      rw [if_neg h]
      exact flip_if (by simp only [decide_eq_true_eq, not_or, ne_eq])) jsEscape (fun _ => rfl) short_js s.text
  simp only [decide_eq_true_eq] at hraw
  rw [nested_iff (f := fun t => t.flatMap utf16) (C22_nested_any _ li (by simp) cfg s)
    (C30_js_partial li cfg (.box ('"' :: (s.text ++ ['"'])))) hraw]
  simp only [text_box]
  rw [forall_quoted _ (by decide), nuls_quoted, and_assoc]
  exact and_congr_right fun _ => and_forall (fun c => by simp only [and_assoc])

/-- C22 in Dart. -/
theorem C22_dart_partial (li : ι → List Str) (cfg : Config) (s : ItemStr) :
    (∃ body, toString (dartLang li) cfg [.openQuote false, .openQuote false, .literal s, .closeQuote,
        .closeQuote] = some ('"' :: (body ++ ['"'])) ∧
      decode dartReader body = some (('"' :: (s.text ++ ['"'])).flatMap utf16) ∧
      decode dartReader s.text = some (s.text.flatMap utf16)) ↔
    ∀ c ∈ s.text, c ≠ '\x12' ∧ c ≠ '\x11' ∧ c ≠ '\\' ∧ c ≠ '"' ∧ c ≠ '$' ∧ c ≠ '\n' ∧ c ≠ '\r' := by
  have hraw := raw_iff dartReader utf16 (fun c => decide (c ≠ '"' ∧ c ≠ '$' ∧ c ≠ '\n' ∧ c ≠ '\r')) (fun c => (utf16_len c).1)
    (fun c r h => by
      simp only [dartReader]
      rw [if_neg h]
      exact flip_if (by simp only [decide_eq_true_eq, not_or, ne_eq])) dartEscape (fun _ => rfl) short_dart s.text
  simp only [decide_eq_true_eq] at hraw
  rw [nested_iff (f := fun t => t.flatMap utf16) (C22_nested_any _ li (by simp) cfg s)
    (C31_dart_partial li cfg (.box ('"' :: (s.text ++ ['"'])))) hraw]
  simp only [text_box]
  rw [forall_quoted _ (by decide)]
  exact and_forall (fun c => by simp only [and_assoc])

/-- C22 in Go. -/
theorem C22_go_partial (li : ι → List Str) (cfg : Config) (s : ItemStr) :
    (∃ body, toString (goLang li) cfg [.openQuote false, .openQuote false, .literal s, .closeQuote,
        .closeQuote] = some ('"' :: (body ++ ['"'])) ∧
      decode goReader body = some (('"' :: (s.text ++ ['"'])).flatMap bytes) ∧
      decode goReader s.text = some (s.text.flatMap bytes)) ↔
    ∀ c ∈ s.text, c ≠ '\'' ∧ c ≠ '\x12' ∧ c ≠ '\x11' ∧ c ≠ '\\' ∧ c ≠ '"' ∧ c ≠ '\n' := by
  have hraw := raw_iff goReader bytes (fun c => decide (c ≠ '"' ∧ c ≠ '\n')) (fun c => (bytes_len c).1)
    (fun c r h => by
      simp only [goReader]
      rw [if_neg h]
      exact flip_if (by simp only [decide_eq_true_eq, not_or, ne_eq])) goEscape (fun _ => rfl) short_go s.text
  simp only [decide_eq_true_eq] at hraw
  rw [nested_iff (f := fun t => t.flatMap bytes) (C22_nested_any _ li (by simp) cfg s)
    (C32_go_partial li cfg (.box ('"' :: (s.text ++ ['"'])))) hraw]
  simp only [text_box]
  rw [forall_quoted _ (by decide)]
  have e : '\'' ∉ '"' :: (s.text ++ ['"']) ↔ ∀ c ∈ s.text, c ≠ '\'' := by
    simp only [List.mem_cons, List.mem_append, List.not_mem_nil, or_false, not_or]
    exact ⟨fun h c hc e => h.2.1 (e ▸ hc), fun h => ⟨by decide, fun hc => h _ hc rfl, by decide⟩⟩
  rw [e, and_forall (fun c => Iff.rfl)]
  exact and_forall (fun c => by simp only [and_assoc])

/-- C22 in C. -/
theorem C22_c_partial (li : ι → List Str) (cfg : Config) (s : ItemStr) :
    (∃ body, toString (cLang li) cfg [.openQuote false, .openQuote false, .literal s, .closeQuote,
        .closeQuote] = some ('"' :: (body ++ ['"'])) ∧
      decode cReader body = some (('"' :: (s.text ++ ['"'])).flatMap bytes) ∧
      decode cReader s.text = some (s.text.flatMap bytes)) ↔
    ControlsApart s.text ∧ (∀ c ∈ s.text, control c = true → c.toNat < 0x80) ∧
      ∀ c ∈ s.text, c ≠ '\x12' ∧ c ≠ '\x11' ∧ c ≠ '\\' ∧ c ≠ '"' ∧ c ≠ '\n' := by
  have hraw := raw_iff cReader bytes (fun c => decide (c ≠ '"' ∧ c ≠ '\n')) (fun c => (bytes_len c).1)
    (fun c r h => by
      simp only [cReader]
      rw [if_neg h]
      exact flip_if (by simp only [decide_eq_true_eq, not_or, ne_eq])) cEscape (fun _ => rfl) short_c s.text
  simp only [decide_eq_true_eq] at hraw
  rw [nested_iff (f := fun t => t.flatMap bytes) (C22_nested_any _ li (by simp) cfg s)
    (C33_c_partial li cfg (.box ('"' :: (s.text ++ ['"'])))) hraw]
  simp only [text_box]
  rw [forall_quoted _ (by decide), forall_quoted _ (by decide +kernel), controls_quoted, and_assoc, and_assoc]
  exact and_congr_right fun _ => and_congr_right fun _ => and_forall (fun c => by simp only [and_assoc])

/-- The line breaks of C#: characters that end a line in its source. -/
def endsLine (c : Char) : Prop :=
  c = '\n' ∨ c = '\r' ∨ c.toNat = 0x85 ∨ c.toNat = 0x2028 ∨ c.toNat = 0x2029

/-- C22 in C#. -/
theorem C22_csharp_partial (li : ι → List Str) (cfg : Config) (s : ItemStr) :
    (∃ body, toString (csharpLang li) cfg [.openQuote false, .openQuote false, .literal s, .closeQuote,
        .closeQuote] = some ('"' :: (body ++ ['"'])) ∧
      decode csharpReader body = some (('"' :: (s.text ++ ['"'])).flatMap utf16) ∧
      decode csharpReader s.text = some (s.text.flatMap utf16)) ↔
    ControlsApart s.text ∧ ∀ c ∈ s.text, c ≠ '\x12' ∧ c ≠ '\x11' ∧ c ≠ '\\' ∧ c ≠ '"' ∧ ¬ endsLine c := by
  have hraw := raw_iff csharpReader utf16 (fun c => decide (c ≠ '"' ∧ ¬ (c = '\n' ∨ c = '\r' ∨ c.toNat = 0x85 ∨
      c.toNat = 0x2028 ∨ c.toNat = 0x2029))) (fun c => (utf16_len c).1)
    (fun c r h => by
      simp only [csharpReader]
      rw [if_neg h]
      by_cases h1 : c = '"' ∨ c = '\n' ∨ c = '\r' ∨ c.toNat = 0x85 ∨ c.toNat = 0x2028 ∨ c.toNat = 0x2029
      · rw [if_pos h1, if_neg]
        simp only [decide_eq_true_eq, ne_eq, not_and, not_not]
        intro h2
        exact h1.resolve_left h2
      · rw [if_neg h1, if_pos]
        simp only [decide_eq_true_eq]
        exact not_or.mp h1) csharpEscape (fun _ => rfl) short_csharp s.text
  simp only [decide_eq_true_eq] at hraw
  rw [nested_iff (f := fun t => t.flatMap utf16) (C22_nested_any _ li (by simp) cfg s)
    (C34_csharp_partial li cfg (.box ('"' :: (s.text ++ ['"'])))) hraw]
  simp only [text_box]
  rw [forall_quoted _ (by decide), controls_quoted, and_assoc]
  exact and_congr_right fun _ => and_forall (fun c => by simp only [and_assoc]; rfl)

/-- C22 in Nix. -/
theorem C22_nix_partial (li : ι → List Str) (cfg : Config) (s : ItemStr) :
    (∃ body, toString (nixLang li) cfg [.openQuote false, .openQuote false, .literal s, .closeQuote,
        .closeQuote] = some ('"' :: (body ++ ['"'])) ∧
      decode nixReader body = some (('"' :: (s.text ++ ['"'])).flatMap bytes) ∧
      decode nixReader s.text = some (s.text.flatMap bytes)) ↔
    (∀ c ∈ s.text, ((32 ≤ c.toNat ∧ c.toNat < 127) ∨ c = '\n' ∨ c = '\r' ∨ c = '\t') ∧ c ≠ '\\' ∧ c ≠ '"') ∧
      opensCode s.text = false := by
  rw [nested_iff (f := fun t => t.flatMap bytes) (C22_nested_any _ li (by simp) cfg s)
    (C35_nix_partial li cfg (.box ('"' :: (s.text ++ ['"'])))) (nix_raw s.text)]
  simp only [text_box]
  rw [forall_quoted _ (by decide +kernel), opensCode_quoted]
  constructor
  · rintro ⟨⟨h1, h2⟩, h3, h4, -⟩
    exact ⟨fun c hc => ⟨h1 c hc, fun e => h3 (e ▸ hc), fun e => h4 (e ▸ hc)⟩, h2⟩
  · rintro ⟨h1, h2⟩
    exact ⟨⟨fun c hc => (h1 c hc).1, h2⟩, fun h => (h1 _ h).2.1 rfl, fun h => (h1 _ h).2.2 rfl, h2⟩

/-- A text that round trips in all ten languages, and the output. -/
example : ∀ c ∈ "caf[e] = {1}".toList, c ≠ '\'' ∧ c ≠ '\x12' ∧ c ≠ '\x11' ∧ c ≠ '\x07' ∧ c ≠ '\x14' ∧ c ≠ '\\' ∧
    c ≠ '"' ∧ c ≠ '$' ∧ c ≠ '\n' ∧ c ≠ '\r' := by decide +kernel

example : toString (goLang (fun s : Str => [s])) cfg2 [.openQuote false, .openQuote false,
    lit "caf[e] = {1}", .closeQuote, .closeQuote] = some "\"\\\"caf[e] = {1}\\\"\"".toList := by decide +kernel

/-- The text of a line break is read back from the outer string as a raw line break, which is not
legal in the inner one. -/
example : toString (swiftLang (fun s : Str => [s])) cfg2 [.openQuote false, .openQuote false,
    lit "\n", .closeQuote, .closeQuote] = some "\"\\\"\\n\\\"\"".toList ∧
    decode swiftReader "\\\"\\n\\\"".toList = some "\"\n\"".toList ∧
    decode swiftReader "\n".toList = none := by decide +kernel

end Genco.Props
