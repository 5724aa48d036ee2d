import Verif.Proofs.Seam
import Verif.Proofs.Escape
import Verif.Props.Parted

/-!
# Whitespace calls anywhere in a stream

C06, C09, C10, C17 and C88 behind any calls before, in strings and in evaluations in
strings, and with any calls behind.
-/

set_option autoImplicit false

namespace Genco.Props

open Genco Spec Tokens

variable {ι : Type}

theorem shows_of_map (L : Lang ι) (esc : Char → Str) (hne : ∀ c, esc c ≠ [])
    (h : ∀ s, L.writeQuoted s = s.map esc) : Shows L := by
  intro s
  rw [h]
  cases s with
  | nil => simp
  | cons c s => simp [hne c]

theorem escJava_ne (c : Char) : escJava c ≠ [] := by
  unfold escJava
  repeat' split
  all_goals first | exact escUtf16_ne c | simp

/-- No language makes a text vanish by escaping it. -/
theorem shows_builtin (L : Lang ι) (li : ι → List Str)
    (hL : L ∈ [rustLang li, swiftLang li, pythonLang li, javaLang li, cLang li, csharpLang li,
      goLang li, nixLang li, jsLang li, dartLang li]) : Shows L := by
  simp only [List.mem_cons, List.not_mem_nil, or_false] at hL
  rcases hL with rfl | rfl | rfl | rfl | rfl | rfl | rfl | rfl | rfl | rfl
  · exact shows_of_map _ _ escRust_ne (fun _ => rfl)
  · exact shows_of_map _ _ escSwift_ne (fun _ => rfl)
  · exact shows_of_map _ _ escCFamily_ne (fun _ => rfl)
  · exact shows_of_map _ _ escJava_ne (fun _ => rfl)
  · exact shows_of_map _ _ escCFamily_ne (fun _ => rfl)
  · exact shows_of_map _ _ escCFamily_ne (fun _ => rfl)
  · exact shows_of_map _ _ escCFamily_ne (fun _ => rfl)
  · exact shows_of_map _ _ escCFamily_ne (fun _ => rfl)
  · exact shows_of_map _ _ escJs_ne (fun _ => rfl)
  · exact shows_of_map _ _ escDart_ne (fun _ => rfl)

/-- Outside of strings: streams without marks leave nothing open, and their level is all
their indentation. -/
theorem marks_plain (items : List (Item ι)) (h : ∀ i ∈ items, isPlain i = true) :
    marks items = some [[⟨false, false⟩]] ∧ height [[⟨false, false⟩]] items = indSum items := by
  induction items with
  | nil => exact ⟨rfl, rfl⟩
  | cons i r ih =>
    obtain ⟨h1, h2⟩ := ih (fun x hx => h x (by simp [hx]))
    have hm : markStep [[⟨false, false⟩]] i = some [[⟨false, false⟩]] := by
      have := h i (by simp)
      cases i <;> first | rfl | simp [isPlain] at this
    unfold marks at h1 ⊢
    refine ⟨by rw [List.foldlM_cons, hm]; exact h1, ?_⟩
    rw [height_cons r hm, h2, if_pos rfl]
    rfl

theorem partText_one (cfg : Config) (l : Int) (w : List WsCall) : partText cfg l [w] = gapText cfg l w := by
  unfold partText gapText
  simp [partBreaks, partSpaces]

/-- C88. Calls that write nothing part the whitespace calls between two texts, wherever the
texts stand: whatever was written before, in or outside of a string, and whatever follows.
What follows depends on the whitespace calls only by the level they lead to. -/
theorem C88_anywhere (L : Lang ι) (hL : Shows L) (cfg : Config) (cs ds : List (Call ι)) (f : MFrame)
    (fs : List MFrame) (hc : marks (history cs).items = some [f :: fs])
    (a b : ItemStr) (ha : a.text ≠ []) (hb : b.text ≠ []) :
    ∃ out, toString L cfg (history (cs ++ [.append (.literal a)])).items = some out ∧
    ∀ n : Int, ∃ rest : Option Str, (ds = [] → rest = some []) ∧
      ∀ w (ps : List (Call ι × List WsCall)), (∀ p ∈ ps, Silent p.1) →
        ((w :: ps.map Prod.snd).map net).sum = n →
        toString L cfg (history (cs ++ [.append (.literal a)] ++
          (w.map WsCall.call ++ ps.flatMap (fun p => p.1 :: p.2.map WsCall.call)) ++
          [.append (.literal b)] ++ ds)).items =
        rest.map (fun r => out ++ partText cfg (height [[⟨false, false⟩]] (history cs).items)
          (w :: ps.map Prod.snd) ++ written L f b.text ++ r) :=
  anywhere L hL cfg cs ds f fs hc a b ha hb

/-- C06. The text between two texts is given by the whitespace calls between them, wherever the
texts stand: whatever was written before, in or outside of a string, and whatever follows.
What follows depends on the whitespace calls only by the level they lead to. -/
theorem C06_anywhere (L : Lang ι) (hL : Shows L) (cfg : Config) (cs ds : List (Call ι)) (f : MFrame)
    (fs : List MFrame) (hc : marks (history cs).items = some [f :: fs])
    (a b : ItemStr) (ha : a.text ≠ []) (hb : b.text ≠ []) :
    ∃ out, toString L cfg (history (cs ++ [.append (.literal a)])).items = some out ∧
    ∀ n : Int, ∃ rest : Option Str, (ds = [] → rest = some []) ∧ ∀ w, net w = n →
      toString L cfg (history (cs ++ [.append (.literal a)] ++ w.map WsCall.call ++
        [.append (.literal b)] ++ ds)).items =
      rest.map (fun r => out ++ gapText cfg (height [[⟨false, false⟩]] (history cs).items) w ++
        written L f b.text ++ r) := by
  obtain ⟨out, ho, h⟩ := anywhere L hL cfg cs ds f fs hc a b ha hb
  refine ⟨out, ho, fun n => ?_⟩
  obtain ⟨rest, hr, h⟩ := h n
  refine ⟨rest, hr, fun w hw => ?_⟩
  have := h w [] (by simp) (by simpa using hw)
  simpa [partText_one, List.append_assoc] using this

/-- Any whitespace calls leading to the same level may be exchanged for each other where they
ask for the same line breaks and spaces. -/
theorem C06_exchange (L : Lang ι) (hL : Shows L) (cfg : Config) (cs ds : List (Call ι)) (f : MFrame)
    (fs : List MFrame) (hc : marks (history cs).items = some [f :: fs])
    (a b : ItemStr) (ha : a.text ≠ []) (hb : b.text ≠ []) (v w : List WsCall) (hn : net v = net w)
    (h1 : gapBreaks v = gapBreaks w) (h2 : gapSpaces v = gapSpaces w) :
    toString L cfg (history (cs ++ [.append (.literal a)] ++ v.map WsCall.call ++
        [.append (.literal b)] ++ ds)).items =
      toString L cfg (history (cs ++ [.append (.literal a)] ++ w.map WsCall.call ++
        [.append (.literal b)] ++ ds)).items := by
  obtain ⟨out, -, h⟩ := C06_anywhere L hL cfg cs ds f fs hc a b ha hb
  obtain ⟨rest, -, h⟩ := h (net w)
  rw [h v hn, h w rfl]
  unfold gapText
  rw [h1, h2, hn]

/-- When the gap has a line break. -/
theorem newline_gapText (cfg : Config) (hn : '\n' ∈ cfg.newline) (l : Int) (w : List WsCall) :
    '\n' ∈ gapText cfg l w ↔ w.count .indent ≠ w.count .unindent ∨
      ∃ u v, w = u ++ v ∧ (∀ c ∈ v, c ≠ WsCall.indent ∧ c ≠ .unindent) ∧ (.push ∈ v ∨ .line ∈ v) := by
  have hnet : net w ≠ 0 ↔ w.count .indent ≠ w.count .unindent := by unfold net; omega
  have hsince : (.push ∈ sinceInd w ∨ .line ∈ sinceInd w) ↔
      ∃ u v, w = u ++ v ∧ (∀ c ∈ v, c ≠ WsCall.indent ∧ c ≠ .unindent) ∧ (.push ∈ v ∨ .line ∈ v) := by
    constructor
    · intro h
      refine ⟨(w.reverse.dropWhile (fun c => !c.isInd)).reverse, sinceInd w, ?_, ?_, h⟩
      · unfold sinceInd
        rw [← List.reverse_append, List.takeWhile_append_dropWhile, List.reverse_reverse]
      · intro c hc
        have := List.all_eq_true.1 (List.all_takeWhile (l := w.reverse) (p := fun c => !c.isInd)) c
          (by simpa [sinceInd] using hc)
        cases c <;> simp_all [WsCall.isInd]
    · rintro ⟨u, v, rfl, hv, h⟩
      have : ∀ x ∈ v, x ∈ sinceInd (u ++ v) := by
        intro x hx
        unfold sinceInd
        rw [List.reverse_append, List.takeWhile_append_of_pos]
        · simp [hx]
        · intro c hc
          have := hv c (List.mem_reverse.1 hc)
          cases c <;> simp_all [WsCall.isInd]
      exact h.imp (this _) (this _)
  rw [← hsince, ← hnet]
  have hbr : gapBreaks w ≠ 0 ↔ (net w ≠ 0 ∨ .push ∈ sinceInd w ∨ .line ∈ sinceInd w) := by
    unfold gapBreaks
    by_cases h1 : WsCall.line ∈ sinceInd w
    · simp [h1]
    · by_cases h2 : WsCall.push ∈ sinceInd w <;> by_cases h3 : net w = 0 <;> simp [h1, h2, h3]
  rw [← hbr]
  constructor
  · intro h h0
    unfold gapText at h
    simp [h0] at h
  · intro h
    obtain ⟨k, hk⟩ := Nat.exists_eq_succ_of_ne_zero h
    unfold gapText
    rw [hk, List.replicate_succ]
    simp [hn]

/-- C09. Exactly when the next text starts on a new line, wherever the texts stand. -/
theorem C09_anywhere_partial (L : Lang ι) (hL : Shows L) (cfg : Config) (hn : '\n' ∈ cfg.newline)
    (cs ds : List (Call ι)) (f : MFrame) (fs : List MFrame)
    (hc : marks (history cs).items = some [f :: fs])
    (a b : ItemStr) (ha : a.text ≠ []) (hb : b.text ≠ []) (w : List WsCall) :
    ∃ out sep rest, toString L cfg (history (cs ++ [.append (.literal a)])).items = some out ∧
      (ds = [] → rest = some []) ∧
      toString L cfg (history (cs ++ [.append (.literal a)] ++ w.map WsCall.call ++
        [.append (.literal b)] ++ ds)).items =
        rest.map (fun r => out ++ sep ++ written L f b.text ++ r) ∧
      ('\n' ∈ sep ↔ w.count .indent ≠ w.count .unindent ∨
        ∃ u v, w = u ++ v ∧ (∀ c ∈ v, c ≠ .indent ∧ c ≠ .unindent) ∧ (.push ∈ v ∨ .line ∈ v)) ∧
      (cfg.newline <+: sep ∨ sep = [] ∨ sep = [' ']) := by
  obtain ⟨out, ho, h⟩ := C06_anywhere L hL cfg cs ds f fs hc a b ha hb
  obtain ⟨rest, hr, h⟩ := h (net w)
  refine ⟨out, _, rest, ho, hr, h w rfl, newline_gapText cfg hn _ w, ?_⟩
  unfold gapText
  cases h : gapBreaks w with
  | zero =>
    right
    unfold gapSpaces
    by_cases hl : w.getLast? = some .space <;> simp [hl]
  | succ k =>
    left
    rw [List.replicate_succ]
    simp [List.append_assoc]

/-- C17. The separator of two texts, wherever they stand, is line breaks, then the margin of the
line, then one space if the last call asks for one. -/
theorem C17_anywhere (L : Lang ι) (hL : Shows L) (cfg : Config)
    (cs ds : List (Call ι)) (f : MFrame) (fs : List MFrame)
    (hc : marks (history cs).items = some [f :: fs])
    (a b : ItemStr) (ha : a.text ≠ []) (hb : b.text ≠ []) (w : List WsCall) :
    ∃ out breaks rest, toString L cfg (history (cs ++ [.append (.literal a)])).items = some out ∧
      (ds = [] → rest = some []) ∧
      toString L cfg (history (cs ++ [.append (.literal a)] ++ w.map WsCall.call ++
        [.append (.literal b)] ++ ds)).items =
        rest.map (fun r => out ++ ((List.replicate breaks cfg.newline).flatten ++
          (if breaks = 0 then [] else
            marginText cfg (height [[⟨false, false⟩]] (history cs).items + net w).toNat)) ++
          (if w.getLast? = some .space then [' '] else []) ++ written L f b.text ++ r) := by
  obtain ⟨out, ho, h⟩ := C06_anywhere L hL cfg cs ds f fs hc a b ha hb
  obtain ⟨rest, hr, h⟩ := h (net w)
  refine ⟨out, gapBreaks w, rest, ho, hr, ?_⟩
  rw [h w rfl]
  unfold gapText gapSpaces
  by_cases hl : w.getLast? = some .space <;> cases gapBreaks w <;> simp [hl]

/-- C10. Interpolating a stream anywhere, in or outside of a string, renders like making its calls
in place exactly if what is left of the calls leading it asks, together with the calls before, for
the line breaks and spaces that all the calls ask for. -/
theorem C10_anywhere_partial (L : Lang ι) (hL : Shows L) (cfg : Config) (hn : '\n' ∈ cfg.newline)
    (cs ds : List (Call ι)) (f : MFrame) (fs : List MFrame)
    (hc : marks (history cs).items = some [f :: fs])
    (a b : ItemStr) (ha : a.text ≠ []) (hb : b.text ≠ []) (wa wb : List WsCall) (o : Str)
    (ho : toString L cfg (history (cs ++ [.append (.literal a)] ++ wa.map WsCall.call ++
      (wb.map WsCall.call ++ [.append (.literal b)] ++ ds))).items = some o) :
    toString L cfg ((history (cs ++ [.append (.literal a)] ++ wa.map WsCall.call)).appendTokens
      (history (wb.map WsCall.call ++ [.append (.literal b)] ++ ds))).items = some o ↔
    gapBreaks (wa ++ lead wb) = gapBreaks (wa ++ wb) ∧
      gapSpaces (wa ++ lead wb) = gapSpaces (wa ++ wb) := by
  obtain ⟨r, hr, hstream⟩ := append_norm cs ds a b wa wb
  obtain ⟨out, -, h⟩ := C06_anywhere L hL cfg cs ds f fs hc a b ha hb
  obtain ⟨rest, -, h⟩ := h (net (wa ++ wb))
  have e : cs ++ [.append (.literal a)] ++ wa.map WsCall.call ++
      (wb.map WsCall.call ++ [.append (.literal b)] ++ ds) =
      cs ++ [.append (.literal a)] ++ (wa ++ wb).map WsCall.call ++ [.append (.literal b)] ++ ds := by
    simp [List.append_assoc]
  rw [e, h _ rfl] at ho
  rw [hstream, h _ (by rw [net_append, net_append, net_normCalls]), gapText_lead cfg _ wa wb r hr]
  obtain ⟨r', rfl⟩ : ∃ r', rest = some r' := by cases rest <;> simp_all
  simp only [Option.map_some, Option.some.injEq] at ho ⊢
  rw [← ho]
  simp only [List.append_assoc, List.append_cancel_left_eq, List.append_cancel_right_eq]
  have hnet : net (wa ++ lead wb) = net (wa ++ wb) := by rw [net_append, net_append, net_lead]
  refine ⟨fun h => gapText_inj cfg hn _ _ _ hnet h, fun ⟨h1, h2⟩ => ?_⟩
  unfold gapText
  rw [h1, h2, hnet]

/-- C24. A negative level anywhere renders as no margin, and the deficit is remembered. -/
theorem C24_anywhere (L : Lang ι) (hL : Shows L) (cfg : Config)
    (cs : List (Call ι)) (f : MFrame) (fs : List MFrame)
    (hc : marks (history cs).items = some [f :: fs])
    (a b : ItemStr) (ha : a.text ≠ []) (hb : b.text ≠ []) (w : List WsCall)
    (h0 : height [[⟨false, false⟩]] (history cs).items + net w ≤ 0) :
    ∃ out, toString L cfg (history (cs ++ [.append (.literal a)])).items = some out ∧
      toString L cfg (history (cs ++ [.append (.literal a)] ++ w.map WsCall.call ++
        [.append (.literal b)])).items =
        some (out ++ (List.replicate (gapBreaks w) cfg.newline).flatten ++
          List.replicate (gapSpaces w) ' ' ++ written L f b.text) := by
  obtain ⟨out, ho, h⟩ := C06_anywhere L hL cfg cs [] f fs hc a b ha hb
  obtain ⟨rest, hr, h⟩ := h (net w)
  refine ⟨out, ho, ?_⟩
  have := h w rfl
  rw [hr rfl, List.append_nil] at this
  rw [this]
  unfold gapText
  have hz : (height [[⟨false, false⟩]] (history cs).items + net w).toNat = 0 := by omega
  have hm : marginText cfg 0 = [] := by unfold marginText; cases cfg.indentation <;> simp
  rw [hz, hm]
  simp

/-! ## Cases -/

/-- In an evaluation in a string, indented before and in the string. -/
def inEval : List (Call Str) := [.indent, .append (lit "x"), .space, .append (.openQuote true),
  .append (lit "y\""), .push, .append .openEval, .append (lit "z"), .indent]

example : marks (history inEval).items = some [[⟨false, true⟩, ⟨true, false⟩]] ∧
    height [[⟨false, false⟩]] (history inEval).items = 2 := by decide

example : Shows (jsLang (fun s : Str => [s])) := shows_builtin _ (fun s : Str => [s]) (by simp)

/-- The rule of C06 in the evaluation: a line break to the third level, with a space. -/
example : toString (jsLang (fun s : Str => [s])) cfg2 (history (inEval ++ [.append (lit "a")])).items =
      some "  x `y\\\"\n  ${z\n    a".toList ∧
    gapText cfg2 2 [.push, .space, .indent, .space] = "\n       ".toList ∧
    toString (jsLang (fun s : Str => [s])) cfg2 (history (inEval ++ [.append (lit "a")] ++
      [.push, .space, .indent, .space] ++ [.append (lit "b")] ++
      [.append .closeEval, .unindent, .append (lit "c\""), .append .closeQuote])).items =
      some ("  x `y\\\"\n  ${z\n    a".toList ++ "\n       ".toList ++ ['b'] ++
        "}\n    c\\\"`".toList) := by decide

/-- In a string the text behind is escaped. -/
def inQuote : List (Call Str) := [.append (.openQuote false), .append (lit "x"), .append (.openQuote false),
  .indent, .append (lit "y"), .append .closeQuote]

/-- The indentation in the string quoted in the string does not count. -/
example : marks (history inQuote).items = some [[⟨true, false⟩]] ∧
    height [[⟨false, false⟩]] (history inQuote).items = 0 ∧
    indSum (history inQuote).items = 1 := by decide

example : toString (rustLang (fun s : Str => [s])) cfg2 (history (inQuote ++ [.append (lit "a"),
      .push, .indent, .append (lit "\"")])).items =
    (toString (rustLang (fun s : Str => [s])) cfg2 (history (inQuote ++ [.append (lit "a")])).items).map
      (fun out => out ++ gapText cfg2 0 [.push, .indent] ++
        written (rustLang (fun s : Str => [s])) ⟨true, false⟩ ['"']) := by decide

/-- A stream interpolated in an evaluation: its leading `indent`, `unindent` is lost, and with it
the line break before. -/
example : toString (jsLang (fun s : Str => [s])) cfg2 ((history (inEval ++ [.append (lit "a"), .push])).appendTokens
      (history [.indent, .unindent, .append (lit "b")])).items ≠
    toString (jsLang (fun s : Str => [s])) cfg2 (history (inEval ++ [.append (lit "a"), .push,
      .indent, .unindent, .append (lit "b")])).items ∧
    gapBreaks ([.push] ++ lead [.indent, .unindent]) ≠ gapBreaks ([.push] ++ [.indent, .unindent]) := by
  decide

/-- A deficit remembered through a string. -/
example : toString (jsLang (fun s : Str => [s])) cfg2 (history [.unindent, .unindent, .append (.openQuote false),
      .append (lit "a"), .indent, .append (lit "b"), .indent, .indent, .append (lit "c"), .append .closeQuote]).items =
    some "\"a\nb\n  c\"".toList := by decide

end Genco.Props
