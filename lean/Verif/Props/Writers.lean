import Verif.Proofs.Writers

/-!
# Properties of the writers (C11, C12, C20, C21)
-/

set_option autoImplicit false

namespace Genco.Props

open Genco Spec

variable {ι σ : Type}

/-- A plain language used in examples: double quotes, no escaping, items are
text (the `()` language of src/lang/mod.rs, with text items). -/
def plain : Lang Str where
  openQuote _ := [['"']]
  closeQuote _ := [['"']]
  writeQuoted s := [s]
  startEval := []
  endEval := []
  evalLiteral s := [[], s, []]
  langItem s := [s]

/-- A literal item, for examples. -/
def lit {ι : Type} (s : String) : Item ι := .literal (.static s.toList)

/-- Two-space indentation and `\n`. -/
def cfg2 : Config := ⟨.space 2, ['\n']⟩

/-- C11. `to_string` is `to_vec` joined with the newline; both fail together. -/
theorem C11_string_is_joined_lines (L : Lang ι) (cfg : Config) (items : List (Item ι)) :
    toString L cfg items = (toVec L cfg items).map (fun ls => cfg.newline.intercalate ls) := by
  simp only [toString, toVec]
  rw [show Fmt.out (σ := Str) = (fun f => id f.out) from rfl, okOf_eq, okOf_eq (g := VecState.intoVec),
    formatItems_out, formatItems_out]
  cases h : (resolveItems L cfg items).2 with
  | none =>
    simp only [replay_string]
    obtain ⟨v, h1, h2⟩ := replay_vec cfg (actsEv cfg (Fmt.new VecState.new).st
      (resolveItems L cfg items).1) (trail_not_actsEv _ _ _) VecState.new
    have h1' : replay vecWriter cfg (actsEv cfg (Fmt.new VecState.new).st
      (resolveItems L cfg items).1) (Fmt.new VecState.new).out = .ok v := h1
    simp [h1']
  | some u =>
    simp only [replay_string]
    obtain ⟨v, h1, h2⟩ := replay_vec cfg (actsEv cfg (Fmt.new VecState.new).st
      (resolveItems L cfg items).1) (trail_not_actsEv _ _ _) VecState.new
    have h1' : replay vecWriter cfg (actsEv cfg (Fmt.new VecState.new).st
      (resolveItems L cfg items).1) (Fmt.new VecState.new).out = .ok v := h1
    have h2 := h2 cfg.newline
    simp only [h1', Option.map, h2]
    rfl

example : toVec plain cfg2 [lit "a", .line, lit "b", .indentation 1, lit "c", .push, .space] =
    some ["a".toList, [], "b".toList, "  c".toList] := by decide

example : toString plain cfg2 [lit "a", .line, lit "b", .indentation 1, lit "c", .push, .space] =
    some "a\n\nb\n  c".toList := by decide

/-- C12. `to_file_string` is `to_file_vec` joined with the newline, followed by
one more newline. -/
theorem C12_file_trailing_newline (L : Lang ι) (cfg : Config) (streams : List (List (Item ι))) :
    toFileString L cfg streams =
      (toFileVec L cfg streams).map (fun ls => cfg.newline.intercalate ls ++ cfg.newline) := by
  simp only [toFileString, toFileVec]
  rw [show Fmt.out (σ := Str) = (fun f => id f.out) from rfl, okOf_eq, okOf_eq (g := VecState.intoVec),
    formatFile_eq, formatFile_eq]
  obtain ⟨v, h1, h2⟩ := replay_vec cfg (actsEv cfg (Fmt.new VecState.new).st
      (resolveStreams L cfg streams).1) (trail_not_actsEv _ _ _) VecState.new
  have h1' : replay vecWriter cfg (actsEv cfg (Fmt.new VecState.new).st
      (resolveStreams L cfg streams).1) (Fmt.new VecState.new).out = .ok v := h1
  cases h : (resolveStreams L cfg streams).2 with
  | none => simp [replay_string, h1']
  | some u =>
    have h2 := h2 cfg.newline
    simp only [replay_append, h1', Except.bind]
    have h3 : replay vecWriter cfg [Ev.trail] v = .ok v := rfl
    have h4 : ∀ o, replay stringWriter cfg [Ev.trail] o = .ok (o ++ cfg.newline) := fun o => rfl
    simp only [replay_string, h3, h4, Option.map, h2]
    rfl

example : toFileString plain cfg2 [[lit "use x;", .line], [lit "b", .push, .line]] =
    some "use x;\n\nb\n".toList := by decide

/-- C20. With any writer, formatting either performs exactly the calls that a
never-failing writer would receive, or fails: then the calls performed are a
prefix of those, and the writer failed at the next call (after which no call was
made: the writer state is the one left by the failing call) or the stream is
malformed and a never-failing writer would have seen the same calls and the same
error. -/
theorem C20_failing_writer (L : Lang ι) (cfg : Config) (W : Writer σ)
    (streams : List (List (Item ι))) (o : σ) :
    ∃ full : List WCall,
      full = (final (formatFile L cfg recorder streams (Fmt.new []))).out ∧
      ((∃ f, formatFile L cfg W streams (Fmt.new o) = .ok f ∧ Performs W cfg full o f.out ∧
          succeeded (formatFile L cfg recorder streams (Fmt.new [])) = true) ∨
       (∃ f p c q o1, formatFile L cfg W streams (Fmt.new o) = .error f ∧ full = p ++ c :: q ∧
          Performs W cfg p o o1 ∧ c.on W cfg o1 = .error f.out) ∨
       (∃ f, formatFile L cfg W streams (Fmt.new o) = .error f ∧ Performs W cfg full o f.out ∧
          succeeded (formatFile L cfg recorder streams (Fmt.new [])) = false)) := by
  refine ⟨_, rfl, ?_⟩
  have hr := formatFile_eq L cfg recorder streams (Fmt.new [])
  have hw := formatFile_eq L cfg W streams (Fmt.new o)
  have hst : (Fmt.new o).st = (Fmt.new ([] : List WCall)).st := rfl
  rw [hst] at hw
  generalize hev : actsEv cfg (Fmt.new ([] : List WCall)).st (resolveStreams L cfg streams).1 = evs
    at hr hw
  have hlog : ∀ (evs : List Ev) (r : Except (Fmt (List WCall)) (Fmt (List WCall))),
      (view r).map Fmt.out = .ok (evs.map Ev.toCall) → ∃ f, r = .ok f ∧ f.out = evs.map Ev.toCall := by
    intro evs r h
    cases r with
    | ok f => exact ⟨f, rfl, by simpa [view, Except.map] using h⟩
    | error f => simp [view, Except.map] at h
  have hlog' : ∀ (evs : List Ev) (r : Except (Fmt (List WCall)) (Fmt (List WCall))),
      (view r).map Fmt.out = .error (evs.map Ev.toCall) →
        ∃ f, r = .error f ∧ f.out = evs.map Ev.toCall := by
    intro evs r h
    cases r with
    | ok f => simp [view, Except.map] at h
    | error f => exact ⟨f, rfl, by simpa [view, Except.map] using h⟩
  have hW : ∀ (o' : σ) (r : Except (Fmt σ) (Fmt σ)),
      (view r).map Fmt.out = .ok o' → ∃ f, r = .ok f ∧ f.out = o' := by
    intro o' r h
    cases r with
    | ok f => exact ⟨f, rfl, by simpa [view, Except.map] using h⟩
    | error f => simp [view, Except.map] at h
  have hW' : ∀ (o' : σ) (r : Except (Fmt σ) (Fmt σ)),
      (view r).map Fmt.out = .error o' → ∃ f, r = .error f ∧ f.out = o' := by
    intro o' r h
    cases r with
    | ok f => simp [view, Except.map] at h
    | error f => exact ⟨f, rfl, by simpa [view, Except.map] using h⟩
  cases h : (resolveStreams L cfg streams).2 with
  | some u =>
    rw [h] at hr hw
    simp only [replay_recorder, Fmt.new, List.nil_append] at hr
    obtain ⟨fr, hfr, hfo⟩ := hlog _ _ hr
    have hfr' : formatFile L cfg recorder streams (Fmt.new []) = .ok fr := hfr
    rw [hfr']
    simp only [final, hfo]
    simp only at hw
    rcases replay_cases W cfg (evs ++ [.trail]) (Fmt.new o).out with
      ⟨o', h1, h2⟩ | ⟨p, e, q, o1, o2, h1, h2, h3, h4⟩
    · rw [h1] at hw
      obtain ⟨f, hf, hfo'⟩ := hW _ _ hw
      exact .inl ⟨f, hf, by rw [hfo']; exact h2, rfl⟩
    · rw [h4] at hw
      obtain ⟨f, hf, hfo'⟩ := hW' _ _ hw
      exact .inr (.inl ⟨f, p.map Ev.toCall, e.toCall, q.map Ev.toCall, o1, hf, by simp [h1], h2,
        by rw [hfo', h3]⟩)
  | none =>
    rw [h] at hr hw
    simp only [replay_recorder, Fmt.new, List.nil_append] at hr
    obtain ⟨fr, hfr, hfo⟩ := hlog' _ _ hr
    have hfr' : formatFile L cfg recorder streams (Fmt.new []) = .error fr := hfr
    rw [hfr']
    simp only [final, hfo]
    simp only at hw
    rcases replay_cases W cfg evs (Fmt.new o).out with
      ⟨o', h1, h2⟩ | ⟨p, e, q, o1, o2, h1, h2, h3, h4⟩
    · rw [h1] at hw
      obtain ⟨f, hf, hfo'⟩ := hW' _ _ hw
      exact .inr (.inr ⟨f, hf, by rw [hfo']; exact h2, rfl⟩)
    · rw [h4] at hw
      obtain ⟨f, hf, hfo'⟩ := hW' _ _ hw
      exact .inr (.inl ⟨f, p.map Ev.toCall, e.toCall, q.map Ev.toCall, o1, hf, by simp [h1], h2,
        by rw [hfo', h3]⟩)

/-- An instance where the writer fails in the middle: room for four bytes. -/
example : final (formatFile plain cfg2 (ioWriter (limited 5)) [[lit "abc", .push, lit "def"]]
      (Fmt.new [])) = ⟨.none, 0, 0, [0x61, 0x62, 0x63, 0x0A, 0x64]⟩ ∧
    succeeded (formatFile plain cfg2 (ioWriter (limited 5)) [[lit "abc", .push, lit "def"]]
      (Fmt.new [])) = false := by decide

/-- C20 in bytes: an `io::Write` with room for `cap` bytes ends up with exactly
the first `cap` bytes of the full output, and formatting succeeds iff everything
fits. -/
theorem C20_limited_bytes (L : Lang ι) (cfg : Config) (cap : Nat) (streams : List (List (Item ι)))
    (s : Str) (hs : toFileString L cfg streams = some s) :
    (final (formatFile L cfg (ioWriter (limited cap)) streams (Fmt.new []))).out =
      (utf8 s).take cap ∧
    (succeeded (formatFile L cfg (ioWriter (limited cap)) streams (Fmt.new [])) = true ↔
      (utf8 s).length ≤ cap) := by
  have h1 := formatFile_eq L cfg stringWriter streams (Fmt.new [])
  have h2 := formatFile_eq L cfg (ioWriter (limited cap)) streams (Fmt.new [])
  have hst : (Fmt.new ([] : List UInt8)).st = (Fmt.new ([] : Str)).st := rfl
  rw [hst] at h2
  generalize hev : actsEv cfg (Fmt.new ([] : Str)).st (resolveStreams L cfg streams).1 = evs
    at h1 h2
  simp only [toFileString] at hs
  rw [show Fmt.out (σ := Str) = (fun f => id f.out) from rfl, okOf_eq, h1] at hs
  cases h : (resolveStreams L cfg streams).2 with
  | none => rw [h] at hs; simp [replay_string] at hs
  | some u =>
    rw [h] at hs h2
    simp only [replay_string, Fmt.new, List.nil_append, id, Option.some.injEq] at hs
    simp only at h2
    rw [replay_limited cap cfg _ _ (by simp [Fmt.new]), hs] at h2
    simp only [Fmt.new, limited, List.length_nil, Nat.zero_add, List.nil_append, Nat.sub_zero] at h2
    simp only [Fmt.new]
    cases hr : formatFile L cfg (ioWriter (limited cap)) streams (Fmt.new []) with
    | ok f =>
      rw [show (Fmt.new ([] : List UInt8)) = (⟨.initial, 0, 0, []⟩ : Fmt _) from rfl] at hr
      rw [hr] at h2 ⊢
      simp only [view, Except.map] at h2
      split at h2
      · rename_i hle
        simp only [Except.ok.injEq] at h2
        simp [final, succeeded, h2, hle, List.take_of_length_le]
      · simp at h2
    | error f =>
      rw [show (Fmt.new ([] : List UInt8)) = (⟨.initial, 0, 0, []⟩ : Fmt _) from rfl] at hr
      rw [hr] at h2 ⊢
      simp only [view, Except.map] at h2
      split at h2
      · simp at h2
      · rename_i hle
        simp only [Except.error.injEq] at h2
        simp [final, succeeded, h2]
        omega

/-- C21. The bytes delivered to an `io::Write` that accepts everything are the
UTF-8 encoding of the string written to a string; both fail together. -/
theorem C21_bytes_are_utf8 (L : Lang ι) (cfg : Config) (streams : List (List (Item ι))) :
    okOf Fmt.out (formatFile L cfg (ioWriter unlimited) streams (Fmt.new [])) =
      (toFileString L cfg streams).map utf8 := by
  have h1 := formatFile_eq L cfg stringWriter streams (Fmt.new [])
  have h2 := formatFile_eq L cfg (ioWriter unlimited) streams (Fmt.new [])
  simp only [toFileString]
  rw [show Fmt.out (σ := Str) = (fun f => id f.out) from rfl,
    show Fmt.out (σ := List UInt8) = (fun f => id f.out) from rfl, okOf_eq, okOf_eq, h1, h2]
  cases h : (resolveStreams L cfg streams).2 with
  | none => simp [replay_string, replay_unlimited]
  | some u =>
    simp only [replay_string, replay_unlimited]
    rfl

example : okOf Fmt.out (formatFile plain cfg2 (ioWriter unlimited) [[lit "é😊"]] (Fmt.new [])) =
    some [0xC3, 0xA9, 0xF0, 0x9F, 0x98, 0x8A, 0x0A] := by decide

end Genco.Props
