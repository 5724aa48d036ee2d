import Verif.Proofs.Found
import Verif.Props.Escape
import Verif.Props.Lines
import Verif.Model.ImportsA

/-!
# The strings of a stream are the strings of the output

C90.
-/

set_option autoImplicit false

namespace Genco.Props

open Genco Spec Tokens

variable {ι : Type}

theorem quotes_builtin (L : Lang ι) (li : ι → List Str)
    (hL : L ∈ [rustLang li, swiftLang li, pythonLang li, javaLang li, cLang li, csharpLang li,
      goLang li, nixLang li, jsLang li, dartLang li]) : (∃ esc, Quotes L esc) ∧ L.langItem = li := by
  simp only [List.mem_cons, List.not_mem_nil, or_false] at hL
  rcases hL with rfl | rfl | rfl | rfl | rfl | rfl | rfl | rfl | rfl | rfl
  · exact ⟨⟨_, rfl, rfl, fun _ => rfl, skipped_rust⟩, rfl⟩
  · exact ⟨⟨_, rfl, rfl, fun _ => rfl, skipped_swift⟩, rfl⟩
  · exact ⟨⟨_, rfl, rfl, fun _ => rfl, skipped_cFamily⟩, rfl⟩
  · exact ⟨⟨_, rfl, rfl, fun _ => rfl, skipped_java⟩, rfl⟩
  · exact ⟨⟨_, rfl, rfl, fun _ => rfl, skipped_cFamily⟩, rfl⟩
  · exact ⟨⟨_, rfl, rfl, fun _ => rfl, skipped_cFamily⟩, rfl⟩
  · exact ⟨⟨_, rfl, rfl, fun _ => rfl, skipped_cFamily⟩, rfl⟩
  · exact ⟨⟨_, rfl, rfl, fun _ => rfl, skipped_cFamily⟩, rfl⟩
  · exact ⟨⟨_, rfl, rfl, fun _ => rfl, skipped_js⟩, rfl⟩
  · exact ⟨⟨_, rfl, rfl, fun _ => rfl, skipped_dart⟩, rfl⟩

theorem quotes_toString (L : Lang ι) (esc : Char → Str) (hQ : Quotes L esc) (cfg : Config) (s : ItemStr) :
    toString L cfg [.openQuote false, .literal s, .closeQuote] =
      some ('"' :: (s.text.flatMap esc ++ ['"'])) := by
  rw [toString_quoted, hQ.opens, hQ.closes, hQ.escapes]
  rfl

/-- **C90**: a reader that looks for quotes finds in the text of a stream as many string literals as
the stream has strings, in order, and nothing else it could take for one: each of them is the text
the string would have alone. -/
theorem C90_strings_found (L : Lang ι) (li : ι → List Str)
    (hL : L ∈ [rustLang li, swiftLang li, pythonLang li, javaLang li, cLang li, csharpLang li,
      goLang li, nixLang li, jsLang li, dartLang li])
    (cfg : Config) (hn : '"' ∉ cfg.newline) (items : List (Item ι)) (bs : List Str)
    (h : contents li none items = some bs) :
    ∃ out bodies, toString L cfg items = some out ∧ Found out bodies ∧
      (∀ other, Found out other → other = bodies) ∧
      bodies.map (fun body => some ('"' :: (body ++ ['"']))) =
        bs.map (fun b => toString L cfg [.openQuote false, .literal (.box b), .closeQuote]) := by
  obtain ⟨⟨esc, hQ⟩, rfl⟩ := quotes_builtin L li hL
  obtain ⟨h1, h2⟩ := found_streams L esc hQ cfg hn [items] [bs] (by simp [h])
  have hf := h2 (Fmt.new ([] : Str)).st
  rw [List.flatten_singleton] at hf
  have hr : resolveItems L cfg items = resolveStreams L cfg [items] := by
    simp only [resolveStreams]
    rcases hi : resolveItems L cfg items with ⟨a, _ | u⟩ <;> simp [pre]
  refine ⟨renderActs cfg (resolveItems L cfg items).1, bs.map (fun b : Str => b.flatMap esc), ?_, ?_, ?_, ?_⟩
  · rw [toString_eq, hr, h1, renderActs_eq]; rfl
  · rw [hr]; exact hf
  · intro other ho
    refine found_unique ho ?_
    rw [hr]; exact hf
  · simp only [List.map_map, quotes_toString L esc hQ cfg]; rfl

/-- **C90** for files. -/
theorem C90_file (L : Lang ι) (li : ι → List Str)
    (hL : L ∈ [rustLang li, swiftLang li, pythonLang li, javaLang li, cLang li, csharpLang li,
      goLang li, nixLang li, jsLang li, dartLang li])
    (cfg : Config) (hn : '"' ∉ cfg.newline) (ss : List (List (Item ι))) (bss : List (List Str))
    (h : ss.mapM (contents li none) = some bss) :
    ∃ out bodies, toFileString L cfg ss = some out ∧ Found out bodies ∧
      (∀ other, Found out other → other = bodies) ∧
      bodies.map (fun body => some ('"' :: (body ++ ['"']))) =
        bss.flatten.map (fun b => toString L cfg [.openQuote false, .literal (.box b), .closeQuote]) := by
  obtain ⟨⟨esc, hQ⟩, rfl⟩ := quotes_builtin L li hL
  obtain ⟨h1, h2⟩ := found_streams L esc hQ cfg hn ss bss h
  have hf := (h2 (Fmt.new ([] : Str)).st).append (.none (s := cfg.newline) hn)
  rw [List.append_nil] at hf
  refine ⟨renderActs cfg (resolveStreams L cfg ss).1 ++ cfg.newline, bss.flatten.map (fun b : Str => b.flatMap esc),
    ?_, hf, fun other ho => found_unique ho hf, ?_⟩
  · simp only [toFileString]
    rw [show Fmt.out (σ := Str) = (fun f => id f.out) from rfl, okOf_eq, formatFile_eq, h1]
    simp only [replay_string, evText_append]
    simp only [evText, List.append_nil]
    rfl
  · simp only [List.map_map, quotes_toString L esc hQ cfg]; rfl

/-- **C90** and C26: in Rust the literals found in a file are read back as the contents of the
strings. -/
theorem C90_rust (li : ι → List Str) (cfg : Config) (hn : '"' ∉ cfg.newline)
    (ss : List (List (Item ι))) (bss : List (List Str)) (h : ss.mapM (contents li none) = some bss) :
    ∃ out bodies, toFileString (rustLang li) cfg ss = some out ∧ Found out bodies ∧
      bodies.map (decode rustReader) = bss.flatten.map some := by
  obtain ⟨out, bodies, h1, h2, -, h4⟩ := C90_file (rustLang li) li (by simp) cfg hn ss bss h
  refine ⟨out, bodies, h1, h2, ?_⟩
  generalize bss.flatten = l at h4
  clear h2
  induction bodies generalizing l with
  | nil => cases l with
    | nil => rfl
    | cons b l => simp at h4
  | cons body bodies ih => cases l with
    | nil => simp at h4
    | cons b l =>
      simp only [List.map_cons, List.cons.injEq] at h4
      obtain ⟨b', e1, e2⟩ := C26_rust li cfg (.box b)
      rw [← h4.1] at e1
      simp only [Option.some.injEq, List.cons.injEq, true_and, List.append_cancel_right_eq] at e1
      rw [List.map_cons, List.map_cons, ih l h4.2, e1, e2]
      rfl

/-- **C90** and C27: the same in Swift. -/
theorem C90_swift (li : ι → List Str) (cfg : Config) (hn : '"' ∉ cfg.newline)
    (ss : List (List (Item ι))) (bss : List (List Str)) (h : ss.mapM (contents li none) = some bss) :
    ∃ out bodies, toFileString (swiftLang li) cfg ss = some out ∧ Found out bodies ∧
      bodies.map (decode swiftReader) = bss.flatten.map some := by
  obtain ⟨out, bodies, h1, h2, -, h4⟩ := C90_file (swiftLang li) li (by simp) cfg hn ss bss h
  refine ⟨out, bodies, h1, h2, ?_⟩
  generalize bss.flatten = l at h4
  clear h2
  induction bodies generalizing l with
  | nil => cases l with
    | nil => rfl
    | cons b l => simp at h4
  | cons body bodies ih => cases l with
    | nil => simp at h4
    | cons b l =>
      simp only [List.map_cons, List.cons.injEq] at h4
      obtain ⟨b', e1, e2⟩ := C27_swift li cfg (.box b)
      rw [← h4.1] at e1
      simp only [Option.some.injEq, List.cons.injEq, true_and, List.append_cancel_right_eq] at e1
      rw [List.map_cons, List.map_cons, ih l h4.2, e1, e2]
      rfl

/-- If a string is read back as `f` of its content exactly if `P` holds of it, all strings found are
exactly if `P` holds of all. -/
theorem read_back {α : Type} {dec : Str → Option α} {f : Str → α} {P : Str → Prop} {sh : Str → Option Str}
    (hP : ∀ b, (∃ body, sh b = some ('"' :: (body ++ ['"'])) ∧ dec body = some (f b)) ↔ P b)
    {bodies bs : List Str} (h : bodies.map (fun body => some ('"' :: (body ++ ['"']))) = bs.map sh) :
    bodies.map dec = bs.map (fun b => some (f b)) ↔ ∀ b ∈ bs, P b := by
  induction bodies generalizing bs with
  | nil => cases bs with
    | nil => simp
    | cons b bs => simp at h
  | cons body bodies ih => cases bs with
    | nil => simp at h
    | cons b bs =>
      simp only [List.map_cons, List.cons.injEq] at h
      rw [List.map_cons, List.map_cons, List.cons.injEq, ih h.2, List.forall_mem_cons]
      have : dec body = some (f b) ↔ P b := by
        rw [← hP b]
        constructor
        · exact fun hd => ⟨body, h.1.symm, hd⟩
        · rintro ⟨body', e1, e2⟩
          rw [← h.1] at e1
          simp only [Option.some.injEq, List.cons.injEq, true_and, List.append_cancel_right_eq] at e1
          rw [e1, e2]
      rw [this]

/-- C90 and C28: the strings found in a file of Python are all read back as the contents of the strings, exactly if this holds of each alone. -/
theorem C90_python (li : ι → List Str) (cfg : Config) (hn : '"' ∉ cfg.newline)
    (ss : List (List (Item ι))) (bss : List (List Str)) (h : ss.mapM (contents li none) = some bss) :
    ∃ out bodies, toFileString (pythonLang li) cfg ss = some out ∧ Found out bodies ∧
      (bodies.map (decode pythonReader) = bss.flatten.map (fun b => some (b)) ↔ ∀ b ∈ bss.flatten,
        ∀ c ∈ b, c ≠ '\x12' ∧ c ≠ '\x11') := by
  obtain ⟨out, bodies, h1, h2, -, h4⟩ := C90_file (pythonLang li) li (by simp) cfg hn ss bss h
  exact ⟨out, bodies, h1, h2, read_back (fun b => C28_python_partial li cfg (.box b)) h4⟩

/-- C90 and C29: the same in Java. -/
theorem C90_java (li : ι → List Str) (cfg : Config) (hn : '"' ∉ cfg.newline)
    (ss : List (List (Item ι))) (bss : List (List Str)) (h : ss.mapM (contents li none) = some bss) :
    ∃ out bodies, toFileString (javaLang li) cfg ss = some out ∧ Found out bodies ∧
      (bodies.map (javaDecode) = bss.flatten.map (fun b => some (b.flatMap utf16)) ↔ ∀ b ∈ bss.flatten,
        ∀ c ∈ b, c ≠ '\x07' ∧ c ≠ '\x14') := by
  obtain ⟨out, bodies, h1, h2, -, h4⟩ := C90_file (javaLang li) li (by simp) cfg hn ss bss h
  exact ⟨out, bodies, h1, h2, read_back (fun b => C29_java_partial li cfg (.box b)) h4⟩

/-- C90 and C30: the same in JavaScript. -/
theorem C90_js (li : ι → List Str) (cfg : Config) (hn : '"' ∉ cfg.newline)
    (ss : List (List (Item ι))) (bss : List (List Str)) (h : ss.mapM (contents li none) = some bss) :
    ∃ out bodies, toFileString (jsLang li) cfg ss = some out ∧ Found out bodies ∧
      (bodies.map (decode jsReader) = bss.flatten.map (fun b => some (b.flatMap utf16)) ↔ ∀ b ∈ bss.flatten,
        NulsApart b ∧ ∀ c ∈ b, c ≠ '\x12' ∧ c ≠ '\x11') := by
  obtain ⟨out, bodies, h1, h2, -, h4⟩ := C90_file (jsLang li) li (by simp) cfg hn ss bss h
  exact ⟨out, bodies, h1, h2, read_back (fun b => C30_js_partial li cfg (.box b)) h4⟩

/-- C90 and C31: the same in Dart. -/
theorem C90_dart (li : ι → List Str) (cfg : Config) (hn : '"' ∉ cfg.newline)
    (ss : List (List (Item ι))) (bss : List (List Str)) (h : ss.mapM (contents li none) = some bss) :
    ∃ out bodies, toFileString (dartLang li) cfg ss = some out ∧ Found out bodies ∧
      (bodies.map (decode dartReader) = bss.flatten.map (fun b => some (b.flatMap utf16)) ↔ ∀ b ∈ bss.flatten,
        ∀ c ∈ b, c ≠ '\x12' ∧ c ≠ '\x11') := by
  obtain ⟨out, bodies, h1, h2, -, h4⟩ := C90_file (dartLang li) li (by simp) cfg hn ss bss h
  exact ⟨out, bodies, h1, h2, read_back (fun b => C31_dart_partial li cfg (.box b)) h4⟩

/-- C90 and C32: the same in Go. -/
theorem C90_go (li : ι → List Str) (cfg : Config) (hn : '"' ∉ cfg.newline)
    (ss : List (List (Item ι))) (bss : List (List Str)) (h : ss.mapM (contents li none) = some bss) :
    ∃ out bodies, toFileString (goLang li) cfg ss = some out ∧ Found out bodies ∧
      (bodies.map (decode goReader) = bss.flatten.map (fun b => some (b.flatMap bytes)) ↔ ∀ b ∈ bss.flatten,
        '\'' ∉ b ∧ ∀ c ∈ b, c ≠ '\x12' ∧ c ≠ '\x11') := by
  obtain ⟨out, bodies, h1, h2, -, h4⟩ := C90_file (goLang li) li (by simp) cfg hn ss bss h
  exact ⟨out, bodies, h1, h2, read_back (fun b => C32_go_partial li cfg (.box b)) h4⟩

/-- C90 and C33: the same in C. -/
theorem C90_c (li : ι → List Str) (cfg : Config) (hn : '"' ∉ cfg.newline)
    (ss : List (List (Item ι))) (bss : List (List Str)) (h : ss.mapM (contents li none) = some bss) :
    ∃ out bodies, toFileString (cLang li) cfg ss = some out ∧ Found out bodies ∧
      (bodies.map (decode cReader) = bss.flatten.map (fun b => some (b.flatMap bytes)) ↔ ∀ b ∈ bss.flatten,
        ControlsApart b ∧ (∀ c ∈ b, control c = true → c.toNat < 0x80) ∧
        ∀ c ∈ b, c ≠ '\x12' ∧ c ≠ '\x11') := by
  obtain ⟨out, bodies, h1, h2, -, h4⟩ := C90_file (cLang li) li (by simp) cfg hn ss bss h
  exact ⟨out, bodies, h1, h2, read_back (fun b => C33_c_partial li cfg (.box b)) h4⟩

/-- C90 and C34: the same in C#. -/
theorem C90_csharp (li : ι → List Str) (cfg : Config) (hn : '"' ∉ cfg.newline)
    (ss : List (List (Item ι))) (bss : List (List Str)) (h : ss.mapM (contents li none) = some bss) :
    ∃ out bodies, toFileString (csharpLang li) cfg ss = some out ∧ Found out bodies ∧
      (bodies.map (decode csharpReader) = bss.flatten.map (fun b => some (b.flatMap utf16)) ↔ ∀ b ∈ bss.flatten,
        ControlsApart b ∧ ∀ c ∈ b, c ≠ '\x12' ∧ c ≠ '\x11') := by
  obtain ⟨out, bodies, h1, h2, -, h4⟩ := C90_file (csharpLang li) li (by simp) cfg hn ss bss h
  exact ⟨out, bodies, h1, h2, read_back (fun b => C34_csharp_partial li cfg (.box b)) h4⟩

/-- C90 and C35: the same in Nix. -/
theorem C90_nix (li : ι → List Str) (cfg : Config) (hn : '"' ∉ cfg.newline)
    (ss : List (List (Item ι))) (bss : List (List Str)) (h : ss.mapM (contents li none) = some bss) :
    ∃ out bodies, toFileString (nixLang li) cfg ss = some out ∧ Found out bodies ∧
      (bodies.map (decode nixReader) = bss.flatten.map (fun b => some (b.flatMap bytes)) ↔ ∀ b ∈ bss.flatten,
        (∀ c ∈ b, (32 ≤ c.toNat ∧ c.toNat < 127) ∨ c = '\n' ∨ c = '\r' ∨ c = '\t') ∧
        opensCode b = false) := by
  obtain ⟨out, bodies, h1, h2, -, h4⟩ := C90_file (nixLang li) li (by simp) cfg hn ss bss h
  exact ⟨out, bodies, h1, h2, read_back (fun b => C35_nix_partial li cfg (.box b)) h4⟩

/-- Two strings with quotes, backslashes and line breaks, among indented code. -/
def twoStrings : List (Item Str) := [lit "f(", .indentation 1, .push, .openQuote false, lit "a\"b\\",
  .register 0 "x".toList, lit "\n", .closeQuote, lit ",", .push, .lang 0 "C".toList, lit "(",
  .openQuote false, .closeQuote, lit ")", .indentation (-1), .push, lit ")"]

example : contents (fun s : Str => [s]) none twoStrings = some ["a\"b\\\n".toList, []] := by decide

example : toString (rustLang (fun s : Str => [s])) cfg2 twoStrings =
    some "f(\n  \"a\\\"b\\\\\\n\",\n  C(\"\")\n)".toList := by decide

/-- The reader finds both. -/
example : Found "f(\n  \"a\\\"b\\\\\\n\",\n  C(\"\")\n)".toList ["a\\\"b\\\\\\n".toList, []] :=
  .one (code := "f(\n  ".toList) (q := "a\\\"b\\\\\\n\",\n  C(\"\")\n)".toList)
    (r := ",\n  C(\"\")\n)".toList) (by decide) (by decide +kernel)
    (.one (code := ",\n  C(".toList) (q := "\")\n)".toList) (r := ")\n)".toList) (by decide)
      (by decide +kernel) (.none (by decide)))

/-- A file of Go: the strings are the path of the import and the string of the body. -/
def goFile : List (List (Item Go.Import)) := Go.file (some (.static "main".toList))
  (history [.appendLang ⟨.box "example.com/\"q\"/fmt".toList, .box "Println".toList⟩, .append (lit "("),
    .append (.openQuote false), .append (lit "a\nb"), .append .closeQuote, .append (lit ")")])

example : goFile.mapM (contents Go.Import.format none) =
    some [["example.com/\"q\"/fmt".toList], ["a\nb".toList]] := by decide +kernel

example : toFileString Go.lang cfg2 goFile = some
    "package main\n\nimport \"example.com/\\\"q\\\"/fmt\"\n\nfmt.Println(\"a\\nb\")\n".toList := by
  decide +kernel

/-- A quote in code takes the string for code: the hypothesis on code is needed. -/
example : contents (fun s : Str => [s]) none ([lit "'\"'", .openQuote false, lit "a", .closeQuote]) = none ∧
    toString (rustLang (fun s : Str => [s])) cfg2 [lit "'\"'", .openQuote false, lit "a", .closeQuote] =
      some "'\"'\"a\"".toList := by decide

end Genco.Props
