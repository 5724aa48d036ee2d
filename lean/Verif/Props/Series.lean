import Verif.Proofs.Series
import Verif.Props.Sinks
import Verif.Props.Open

/-!
# Several files written with one writer (C83)
-/

set_option autoImplicit false

namespace Genco.Props

open Genco Spec

variable {ι σ : Type}

/-- The file leaves a formatter at the level at which it has found it. -/
def Level (L : Lang ι) (cfg : Config) (s : List (List (Item ι))) : Prop :=
  ∀ f, formatFile L cfg stringWriter s (Fmt.new []) = .ok f → f.indent = 0

theorem level_of {L : Lang ι} {cfg : Config} {s : List (List (Item ι))} (h : Level L cfg s) {u : Unit}
    (hu : (resolveStreams L cfg s).2 = some u) : (actsSt .new (resolveStreams L cfg s).1).indent = 0 := by
  have := formatFile_run L cfg stringWriter s (Fmt.new [])
  rw [hu, replay_string] at this
  exact h _ (view_ok_of this)

theorem started {L : Lang ι} {cfg : Config} (W : Writer σ) {s : List (List (Item ι))} (h : Begins L s) (o : σ) :
    view (formatFile L cfg W s (LSt.mk' ⟨.none, 0, 0⟩ o)) = view (formatFile L cfg W s (Fmt.new o)) := by
  obtain ⟨l, r, h1, h2⟩ := resolve_begins L cfg s h
  obtain ⟨e1, e2⟩ := texts_started cfg l h1 r
  rw [formatFile_run, formatFile_run, h2, st_mk', show (Fmt.new o).st = .new from rfl, e1, e2]
  rfl

theorem final_state {L : Lang ι} {cfg : Config} (W : Writer σ) {s : List (List (Item ι))} (h : Level L cfg s) (o : σ) {g : Fmt σ}
    (hg : view (formatFile L cfg W s (Fmt.new o)) = .ok g) : g = LSt.mk' ⟨.none, 0, 0⟩ g.out := by
  rw [formatFile_run] at hg
  cases hu : (resolveStreams L cfg s).2 with
  | none =>
    rw [hu] at hg
    simp only at hg
    split at hg <;> cases hg
  | some u =>
    rw [hu, show (Fmt.new o).st = .new from rfl, level_of h hu] at hg
    simp only at hg
    cases hr : replay W cfg (actsEv cfg .new (resolveStreams L cfg s).1 ++ [.trail]) (Fmt.new o).out with
    | error e => rw [hr] at hg; cases hg
    | ok x => rw [hr] at hg; cases hg; rfl

theorem sink_view {r r' : Except (Fmt σ) (Fmt σ)} (h : view r = view r') : sink r = sink r' := by
  rw [← sink_eq, ← sink_eq, h]

theorem view_ok {r : Except (Fmt σ) (Fmt σ)} {g : Fmt σ} : view r = .ok g ↔ r = .ok g := by
  cases r <;> simp [view]

theorem run_ok {L : Lang ι} {cfg : Config} {s : List (List (Item ι))} {ss} {W : Writer σ} {f g : Fmt σ}
    (h : view (formatFile L cfg W s f) = .ok g) : view (formatFiles L cfg W (s :: ss) f) = view (formatFiles L cfg W ss g) := by
  rw [formatFiles, view_ok.1 h]; rfl

theorem run_anew {L : Lang ι} {cfg : Config} {s : List (List (Item ι))} {ss} {W : Writer σ} {f g : Fmt σ}
    (h : view (formatFile L cfg W s (Fmt.new f.out)) = .ok g) :
    view (formatFilesAnew L cfg W (s :: ss) f) = view (formatFilesAnew L cfg W ss g) := by
  rw [formatFilesAnew, view_ok.1 h]; rfl

/-- C83. Files that leave the level as it was and, but for the first, begin with text: one formatter for all of
them does what a new one for each does, whatever it writes to, and whether writing fails or not. -/
theorem C83_same_partial (L : Lang ι) (cfg : Config) (W : Writer σ) (files : List (List (List (Item ι)))) (o : σ)
    (h1 : ∀ s ∈ files, Level L cfg s) (h2 : ∀ s ∈ files.tail, Begins L s) :
    sink (formatFiles L cfg W files (Fmt.new o)) = sink (formatFilesAnew L cfg W files (Fmt.new o)) := by
  have key : ∀ (files : List (List (List (Item ι)))) (o : σ), (∀ s ∈ files, Level L cfg s) → (∀ s ∈ files, Begins L s) →
      view (formatFiles L cfg W files (LSt.mk' ⟨.none, 0, 0⟩ o)) = view (formatFilesAnew L cfg W files (LSt.mk' ⟨.none, 0, 0⟩ o)) := by
    intro files
    induction files with
    | nil => intro o _ _; rfl
    | cons s ss ih =>
      intro o h1 h2
      have hs := started (cfg := cfg) W (h2 s (by simp)) o
      cases hg : view (formatFile L cfg W s (Fmt.new o)) with
      | error e =>
        rw [hg] at hs
        rw [formatFiles, formatFilesAnew, view_bind, view_bind, hs, out_mk', hg]
        rfl
      | ok g =>
        have hf := final_state W (h1 s (by simp)) o hg
        rw [run_ok (hs.trans hg), run_anew (f := LSt.mk' ⟨.none, 0, 0⟩ o) hg, hf]
        exact ih _ (fun s hs => h1 s (by simp [hs])) (fun s hs => h2 s (by simp [hs]))
  cases files with
  | nil => rfl
  | cons s ss =>
    refine sink_view ?_
    cases hg : view (formatFile L cfg W s (Fmt.new o)) with
    | error e =>
      rw [formatFiles, formatFilesAnew, view_bind, view_bind, show (Fmt.new o).out = o from rfl, hg]
      rfl
    | ok g =>
      have hf := final_state W (h1 s (by simp)) o hg
      rw [run_ok hg, run_anew (f := Fmt.new o) hg, hf]
      exact key _ _ (fun s hs => h1 s (by simp [hs])) h2

/-- C83. Exactly what one formatter writes for any files: each but the first is laid out as if it stood behind a
text, at the level that the files before have left. It fails if a file does. -/
theorem C83_exact_partial (L : Lang ι) (cfg : Config) (files : List (List (List (Item ι)))) :
    (sink (formatFiles L cfg stringWriter files (Fmt.new []))).toOption =
      (files.mapM (fun s : List (List (Item ι)) => (s.mapM (asks L cfg .blank [])).map List.flatten)).map (oneByOne cfg []) := by
  have key : ∀ (files : List (List (List (Item ι)))) (p : List Act) (o : Str),
      (sink (formatFiles L cfg stringWriter files (LSt.mk' (specSt p) o))).toOption =
        (files.mapM (fun s : List (List (Item ι)) => (s.mapM (asks L cfg .blank [])).map List.flatten)).map (fun fs => o ++ oneByOne cfg p fs) := by
    intro files
    induction files with
    | nil =>
      intro p o
      simp [formatFiles, sink, oneByOne, Except.toOption]
    | cons s ss ih =>
      intro p o
      have hf := formatFile_run L cfg stringWriter s (LSt.mk' (specSt p) o)
      rw [List.mapM_cons, asks_streams]
      cases hu : (resolveStreams L cfg s).2 with
      | none =>
        rw [hu] at hf
        simp only [replay_string] at hf
        rw [← sink_eq, formatFiles, view_bind, hf]
        rfl
      | some u =>
        rw [hu, replay_string] at hf
        have hst : (⟨.none, 0, (actsSt (specSt p) (resolveStreams L cfg s).1).indent⟩ : LSt) =
            specSt (p ++ (resolveStreams L cfg s).1 ++ [.text ['x']]) := by
          rw [← actsSt_spec p, ← actsSt_append, actsSt_spec]
          generalize p ++ (resolveStreams L cfg s).1 = q
          simp [specSt, isFirst_concat, visible, gap_concat, seps, afterLast, actInd]
        rw [st_mk', hst] at hf
        rw [sink_view (run_ok (f := LSt.mk' (specSt p) o) hf), ih]
        rw [evText_append, ← actsSt_spec p, evText_acts]
        cases ss.mapM (fun s : List (List (Item ι)) => (s.mapM (asks L cfg .blank [])).map List.flatten) with
        | none => rfl
        | some fs => simp [oneByOne, evText]
  exact key files [] []

example : oneByOne cfg2 [] [[.indent 1, .text ['a'], .line], [.push, .text ['b'], .push, .text ['c']]] =
    "  a\n\n  b\n  c\n".toList := by decide +kernel

/-- C83. A new formatter for each file: the text is that of the files, one behind the other. -/
theorem C83_text (L : Lang ι) (cfg : Config) (files : List (List (List (Item ι)))) (outs : List Str)
    (h : files.map (toFileString L cfg) = outs.map some) :
    sink (formatFilesAnew L cfg stringWriter files (Fmt.new [])) = .ok outs.flatten := by
  have key : ∀ (files : List (List (List (Item ι)))) (outs : List Str) (f : Fmt Str), files.map (toFileString L cfg) = outs.map some →
      sink (formatFilesAnew L cfg stringWriter files f) = .ok (f.out ++ outs.flatten) := by
    intro files
    induction files with
    | nil =>
      intro outs f h
      cases outs with
      | nil => simp [formatFilesAnew, sink]
      | cons => cases h
    | cons s ss ih =>
      intro outs f h
      cases outs with
      | nil => cases h
      | cons a outs =>
        simp only [List.map_cons, List.cons.injEq] at h
        obtain ⟨ha, hr⟩ := h
        have hn := formatFile_run L cfg stringWriter s (Fmt.new [])
        have hf := formatFile_run L cfg stringWriter s (Fmt.new f.out)
        cases hu : (resolveStreams L cfg s).2 with
        | none =>
          rw [hu] at hn
          simp only [replay_string] at hn
          unfold toFileString at ha
          cases hx : formatFile L cfg stringWriter s (Fmt.new []) with
          | ok g => rw [hx] at hn; cases hn
          | error g => rw [hx] at ha; cases ha
        | some u =>
          rw [hu, replay_string] at hn hf
          have hx := view_ok_of hn
          have e : a = evText cfg.newline (actsEv cfg .new (resolveStreams L cfg s).1 ++ [.trail]) := by
            rw [toFileString, hx] at ha
            simpa [okOf, LSt.mk', Fmt.new, Fmt.st, LSt.new] using ha.symm
          rw [sink_view (run_anew (f := f) hf), ih _ _ hr]
          have : ((Fmt.new f.out).st : LSt) = .new := rfl
          simp [e, LSt.mk', Fmt.new, Fmt.st, LSt.new]
  simpa [Fmt.new] using key files outs (Fmt.new []) h

/-- C83. The same for lines: the first line of a file is added to the last line of the file before it, since a
vector has no trailing line. -/
theorem C83_lines (L : Lang ι) (cfg : Config) (files : List (List (List (Item ι)))) (outs : List (List Str))
    (h : files.map (toFileVec L cfg) = outs.map some) :
    ∃ v, sink (formatFilesAnew L cfg vecWriter files (Fmt.new .new)) = .ok v ∧ v.intoVec = outs.foldl weld [[]] := by
  have key : ∀ (files : List (List (List (Item ι)))) (outs : List (List Str)) (f : Fmt VecState),
      files.map (toFileVec L cfg) = outs.map some →
      ∃ v, sink (formatFilesAnew L cfg vecWriter files f) = .ok v ∧ v.intoVec = outs.foldl weld f.out.intoVec := by
    intro files
    induction files with
    | nil =>
      intro outs f h
      cases outs with
      | nil => exact ⟨f.out, rfl, rfl⟩
      | cons => cases h
    | cons s ss ih =>
      intro outs f h
      cases outs with
      | nil => cases h
      | cons a outs =>
        simp only [List.map_cons, List.cons.injEq] at h
        obtain ⟨ha, hr⟩ := h
        have hn := formatFile_run L cfg vecWriter s (Fmt.new .new)
        have hf := formatFile_run L cfg vecWriter s (Fmt.new f.out)
        obtain ⟨u, w, r1, r2, r3⟩ := replay_seam cfg (actsEv cfg .new (resolveStreams L cfg s).1 ++ [.trail]) f.out
        obtain ⟨u', -, r1', -, -⟩ := replay_seam cfg (actsEv cfg .new (resolveStreams L cfg s).1) f.out
        cases hu : (resolveStreams L cfg s).2 with
        | none =>
          rw [hu, show (Fmt.new VecState.new).st = .new from rfl, show (Fmt.new VecState.new).out = .new from rfl, r1'] at hn
          unfold toFileVec at ha
          cases hx : formatFile L cfg vecWriter s (Fmt.new .new) with
          | ok g => rw [hx] at hn; cases hn
          | error g => rw [hx] at ha; cases ha
        | some _ =>
          rw [hu, show (Fmt.new VecState.new).st = .new from rfl, show (Fmt.new VecState.new).out = .new from rfl, r1] at hn
          rw [hu, show (Fmt.new f.out).st = .new from rfl, show (Fmt.new f.out).out = f.out from rfl, r2] at hf
          have hx := view_ok.1 hn
          have e : a = u.intoVec := by
            rw [toFileVec, hx] at ha
            simpa [okOf, LSt.mk'] using ha.symm
          rw [sink_view (run_anew (f := f) hf)]
          obtain ⟨v, v1, v2⟩ := ih _ (LSt.mk' ⟨.none, 0, _⟩ w) hr
          refine ⟨v, v1, v2.trans ?_⟩
          rw [List.foldl_cons, out_mk', r3, e]
          congr 1
          simp [weld, VecState.intoVec, List.headD_eq_head?_getD]
  exact key files outs (Fmt.new .new) h

/-- C83. It is not so for all files: a line break in front of the second file is written if the formatter is not
a new one, and what the first file has left of its indentation is there in the second. -/
theorem C83_same_false :
    sink (formatFiles plain cfg2 stringWriter [[[lit "a"]], [[.push, lit "b"]]] (Fmt.new [])) = .ok "a\n\nb\n".toList ∧
    sink (formatFilesAnew plain cfg2 stringWriter [[[lit "a"]], [[.push, lit "b"]]] (Fmt.new [])) = .ok "a\nb\n".toList ∧
    sink (formatFiles plain cfg2 stringWriter [[[.indentation 1, lit "a"]], [[lit "b", .push, lit "c"]]] (Fmt.new [])) =
      .ok "  a\nb\n  c\n".toList ∧
    sink (formatFilesAnew plain cfg2 stringWriter [[[.indentation 1, lit "a"]], [[lit "b", .push, lit "c"]]] (Fmt.new [])) =
      .ok "  a\nb\nc\n".toList := by
  refine ⟨?_, ?_, ?_, ?_⟩ <;> rfl

/-- Two files, with spaces at the end of the first. -/
def two : List (List (List (Item Str))) :=
  [[[.register 0 "x".toList, lit "use x;", .line], [lit "a", .indentation 1, lit "b", .indentation (-1), .space]],
   [[], [.register 0 "y".toList, lit "c", .push, lit "d"]]]

example : (∀ s ∈ two, Level plain cfg2 s) ∧ (∀ s ∈ two.tail, Begins plain s) ∧
    sink (formatFiles plain cfg2 stringWriter two (Fmt.new [])) = .ok "use x;\n\na\n  b\nc\nd\n".toList ∧
    okOf (fun f => f.out.intoVec) (formatFiles plain cfg2 vecWriter two (Fmt.new .new)) =
      some ["use x;".toList, [], "a".toList, "  bc".toList, "d".toList] := by
  refine ⟨?_, ?_, rfl, by decide⟩
  · intro s hs f hf
    simp only [two, List.mem_cons, List.not_mem_nil, or_false] at hs
    rcases hs with rfl | rfl <;> (cases hf; rfl)
  · intro s hs
    cases List.mem_singleton.1 hs
    exact .inr ⟨rfl, .inl (by decide)⟩

end Genco.Props
