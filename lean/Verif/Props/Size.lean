import Verif.Proofs.Size
import Verif.Props.Escape

/-!
# Literals are as long as need be (C102)
-/

set_option autoImplicit false

namespace Genco.Props

open Spec Spec.Size

variable {ι : Type}

/-- The languages with the characters that stand for themselves, and the most characters one character
is written with. -/
def sizes (li : ι → List Str) : List (Lang ι × (Char → Prop) × Nat) :=
  [(rustLang li, PlainRust, 8), (jsLang li, PlainRust, 4), (swiftLang li, PlainSwift, 6),
    (dartLang li, PlainDart, 4), (javaLang li, PlainAscii, 12), (pythonLang li, PlainAscii, 10),
    (cLang li, PlainAscii, 10), (csharpLang li, PlainAscii, 10), (goLang li, PlainAscii, 10),
    (nixLang li, PlainAscii, 10)]

theorem sizes_written (li : ι → List Str) (L : Lang ι) (plain : Char → Prop) (k : Nat)
    (h : (L, plain, k) ∈ sizes li) :
    ∃ esc w, Written esc plain k w ∧ (∀ s, L.writeQuoted s = s.map esc) ∧
      ∀ ev, ∃ q, L.openQuote ev = [[q]] ∧ L.closeQuote ev = [[q]] := by
  simp only [sizes, List.mem_cons, List.not_mem_nil, or_false, Prod.mk.injEq] at h
  rcases h with ⟨rfl, rfl, rfl⟩ | ⟨rfl, rfl, rfl⟩ | ⟨rfl, rfl, rfl⟩ | ⟨rfl, rfl, rfl⟩ | ⟨rfl, rfl, rfl⟩ |
    ⟨rfl, rfl, rfl⟩ | ⟨rfl, rfl, rfl⟩ | ⟨rfl, rfl, rfl⟩ | ⟨rfl, rfl, rfl⟩ | ⟨rfl, rfl, rfl⟩
  · exact ⟨_, _, written_rust, fun _ => rfl, fun _ => ⟨_, rfl, rfl⟩⟩
  · exact ⟨_, _, written_js, fun _ => rfl, fun ev => by cases ev <;> exact ⟨_, rfl, rfl⟩⟩
  · exact ⟨_, _, written_swift, fun _ => rfl, fun _ => ⟨_, rfl, rfl⟩⟩
  · exact ⟨_, _, written_dart, fun _ => rfl, fun _ => ⟨_, rfl, rfl⟩⟩
  · exact ⟨_, _, written_java, fun _ => rfl, fun _ => ⟨_, rfl, rfl⟩⟩
  all_goals exact ⟨_, _, written_cFamily, fun _ => rfl, fun _ => ⟨_, rfl, rfl⟩⟩

theorem quoted_body {L : Lang ι} {esc : Char → Str} (hw : ∀ s, L.writeQuoted s = s.map esc) (cfg : Config)
    {ev : Bool} {q : Char} (ho : L.openQuote ev = [[q]]) (hc : L.closeQuote ev = [[q]]) (s : ItemStr) :
    toString L cfg [.openQuote ev, .literal s, .closeQuote] = some (q :: (s.text.flatMap esc ++ [q])) := by
  rw [toString_quoted, ho, hc, hw, flatten_map]
  simp

/-- C102. Between its delimiters a literal has the text itself exactly if all its characters are plain. -/
theorem C102_readable (li : ι → List Str) (L : Lang ι) (plain : Char → Prop) (k : Nat)
    (h : (L, plain, k) ∈ sizes li) (cfg : Config) (ev : Bool) (s : ItemStr) :
    ∃ q body, toString L cfg [.openQuote ev, .literal s, .closeQuote] = some (q :: (body ++ [q])) ∧
      (body = s.text ↔ ∀ c ∈ s.text, plain c) := by
  obtain ⟨esc, w, hw, hq, hd⟩ := sizes_written li L plain k h
  obtain ⟨q, ho, hc⟩ := hd ev
  exact ⟨q, _, quoted_body hq cfg ho hc s, hw.same s.text⟩

/-- C102. Plain characters are written as they are wherever they stand, and every other one is written
with more than one character. -/
theorem C102_each (li : ι → List Str) (L : Lang ι) (plain : Char → Prop) (k : Nat)
    (h : (L, plain, k) ∈ sizes li) (cfg : Config) (ev : Bool) :
    ∃ q, ∃ f : Char → Str, (∀ c, plain c → f c = [c]) ∧ (∀ c, ¬ plain c → 2 ≤ (f c).length ∧ (f c).length ≤ k) ∧
      ∀ s : ItemStr, toString L cfg [.openQuote ev, .literal s, .closeQuote] = some (q :: (s.text.flatMap f ++ [q])) := by
  obtain ⟨esc, w, hw, hq, hd⟩ := sizes_written li L plain k h
  obtain ⟨q, ho, hc⟩ := hd ev
  exact ⟨q, esc, hw.self, fun c hc => ⟨hw.other c hc, hw.most c⟩, quoted_body hq cfg ho hc⟩

/-- C102. A literal is at least as long as its text with delimiters, and at most the given number of
times as long. -/
theorem C102_size (li : ι → List Str) (L : Lang ι) (plain : Char → Prop) (k : Nat)
    (h : (L, plain, k) ∈ sizes li) (cfg : Config) (ev : Bool) (s : ItemStr) :
    ∃ out, toString L cfg [.openQuote ev, .literal s, .closeQuote] = some out ∧
      s.text.length + 2 ≤ out.length ∧ out.length ≤ k * s.text.length + 2 := by
  obtain ⟨esc, w, hw, hq, hd⟩ := sizes_written li L plain k h
  obtain ⟨q, ho, hc⟩ := hd ev
  have hb := hw.bounds s.text
  refine ⟨_, quoted_body hq cfg ho hc s, ?_⟩
  simp only [List.length_cons, List.length_append, List.length_nil]
  omega

/-- C102. There are texts of every length for which it is that long. -/
theorem C102_tight (li : ι → List Str) (L : Lang ι) (plain : Char → Prop) (k : Nat)
    (h : (L, plain, k) ∈ sizes li) (cfg : Config) (ev : Bool) (n : Nat) :
    ∃ (s : ItemStr) (out : Str), s.text.length = n ∧
      toString L cfg [.openQuote ev, .literal s, .closeQuote] = some out ∧ out.length = k * n + 2 := by
  obtain ⟨esc, w, hw, hq, hd⟩ := sizes_written li L plain k h
  obtain ⟨q, ho, hc⟩ := hd ev
  refine ⟨.box (List.replicate n w), _, List.length_replicate, quoted_body hq cfg ho hc _, ?_⟩
  simp only [List.length_cons, List.length_append, List.length_nil]
  rw [show (ItemStr.box (List.replicate n w)).text = List.replicate n w from rfl, hw.tight]

/-- All languages are covered. -/
example (li : ι → List Str) : (sizes li).length = 10 := rfl

example : ∀ c ∈ "Grüße, 世界 it's $5".toList, PlainRust c := by decide

example : ¬ ∀ c ∈ "it's".toList, PlainAscii c := by decide

example : toString (rustLang (fun s : Str => [s])) ⟨.space 4, ['\n']⟩
    [.openQuote false, lit "Grüße, 世界", .closeQuote] = some "\"Grüße, 世界\"".toList := by decide +kernel

example : toString (javaLang (fun s : Str => [s])) ⟨.space 4, ['\n']⟩
    [.openQuote false, lit "ü😀", .closeQuote] = some "\"\\u00fc\\ud83d\\ude00\"".toList := by decide +kernel

end Genco.Props
