import Verif.Proofs.Writers
import Verif.Model.Series
import Verif.Spec.Series

/-!
# Several files written with one writer
-/

set_option autoImplicit false

namespace Genco

open Spec

variable {ι σ : Type}

theorem formatFile_run (L : Lang ι) (cfg : Config) (W : Writer σ) (ss : List (List (Item ι))) (f : Fmt σ) :
    view (formatFile L cfg W ss f) =
      match (resolveStreams L cfg ss).2 with
      | some _ => (replay W cfg (actsEv cfg f.st (resolveStreams L cfg ss).1 ++ [.trail]) f.out).map
        (LSt.mk' ⟨.none, 0, (actsSt f.st (resolveStreams L cfg ss).1).indent⟩)
      | none =>
        match replay W cfg (actsEv cfg f.st (resolveStreams L cfg ss).1) f.out with
        | .ok o => .error o
        | .error o => .error o := by
  simp only [formatFile, view_bind, formatStreams_eq, runRes]
  cases h : (resolveStreams L cfg ss).2 with
  | none =>
    simp only
    cases replay W cfg (actsEv cfg f.st (resolveStreams L cfg ss).1) f.out <;> rfl
  | some u =>
    simp only [replay_append]
    cases replay W cfg (actsEv cfg f.st (resolveStreams L cfg ss).1) f.out with
    | error o => rfl
    | ok o =>
      simp only [Except.bind, Except.map, replay, Ev.call, Fmt.writeTrailingLine, Fmt.lift, out_mk']
      cases W.writeTrailingLine cfg o <;> rfl

/-- The start of a line and the inside of a line do not differ for text. -/
theorem texts_started (cfg : Config) (l : List Str) (h : l.flatten ≠ []) (r : List Act) :
    actsEv cfg ⟨.none, 0, 0⟩ (texts l ++ r) = actsEv cfg .new (texts l ++ r) ∧
    actsSt ⟨.none, 0, 0⟩ (texts l ++ r) = actsSt .new (texts l ++ r) := by
  induction l with
  | nil => exact absurd rfl h
  | cons s l ih =>
    by_cases hs : s = []
    · subst hs
      exact ih (by simpa using h)
    · have e : flushEv cfg ⟨.none, 0, 0⟩ = flushEv cfg .new := by
        have c0 : ∀ b : Str, chunks b 0 0 = [] := fun _ => rfl
        unfold flushEv
        simp only [Whitespace.intoIndent, LSt.new]
        cases cfg.indentation <;> simp [c0]
      simp only [texts, List.map_cons, List.cons_append, actsEv, actsSt, actEv, actSt, if_pos hs, e]
      exact ⟨rfl, rfl⟩

theorem resolve_opening (L : Lang ι) (cfg : Config) (items : List (Item ι)) (h : opening L items ≠ []) :
    ∃ l r, l.flatten ≠ [] ∧ (resolveItems L cfg items).1 = texts l ++ r := by
  induction items with
  | nil => exact absurd rfl h
  | cons i items ih =>
    cases i with
    | register a b =>
      obtain ⟨l, r, h1, h2⟩ := ih h
      exact ⟨l, r, h1, h2⟩
    | literal s => exact ⟨[s.text], _, by simpa [opening] using h, rfl⟩
    | openQuote e => exact ⟨L.openQuote e, _, h, rfl⟩
    | lang a i => exact ⟨L.langItem i, _, h, rfl⟩
    | _ => exact absurd rfl h

theorem resolve_registers (L : Lang ι) (cfg : Config) (items : List (Item ι)) (h : silent items = true) :
    resolveItems L cfg items = ([], some ()) := by
  induction items with
  | nil => rfl
  | cons i items ih =>
    cases i with
    | register a b => exact ih h
    | _ => cases h

theorem resolve_begins (L : Lang ι) (cfg : Config) (ss : List (List (Item ι))) (h : Begins L ss) :
    ∃ l r, l.flatten ≠ [] ∧ (resolveStreams L cfg ss).1 = texts l ++ r := by
  induction ss with
  | nil => exact absurd h id
  | cons s ss ih =>
    rcases h with h | ⟨h1, h2⟩
    · obtain ⟨l, r, e1, e2⟩ := resolve_opening L cfg s h
      unfold resolveStreams
      cases h2 : (resolveItems L cfg s).2 with
      | none => exact ⟨l, r, e1, by simp only [h2]; exact e2⟩
      | some u =>
        refine ⟨l, r ++ (resolveStreams L cfg ss).1, e1, ?_⟩
        simp only [h2, pre, e2, List.append_assoc]
    · obtain ⟨l, r, e1, e2⟩ := ih h2
      refine ⟨l, r, e1, ?_⟩
      unfold resolveStreams
      rw [resolve_registers L cfg s h1]
      simpa [pre] using e2

/-- Lines are added to the line that is open. -/
theorem replay_seam (cfg : Config) (evs : List Ev) (v : VecState) :
    ∃ u w, replay vecWriter cfg evs .new = .ok u ∧ replay vecWriter cfg evs v = .ok w ∧
      w.intoVec = v.target ++ (v.lineBuffer ++ u.intoVec.headD []) :: u.intoVec.tail := by
  have key : ∀ (evs : List Ev) (t : List Str) (b : Str) (v : VecState), ∃ u w, replay vecWriter cfg evs ⟨b, t⟩ = .ok u ∧
      replay vecWriter cfg evs ⟨if t = [] then v.lineBuffer ++ b else b,
        v.target ++ (t.head?.map (v.lineBuffer ++ ·)).toList ++ t.tail⟩ = .ok w ∧
      w.intoVec = v.target ++ (v.lineBuffer ++ u.intoVec.headD []) :: u.intoVec.tail := by
    intro evs
    induction evs with
    | nil =>
      intro t b v
      refine ⟨_, _, rfl, rfl, ?_⟩
      cases t <;> simp [VecState.intoVec]
    | cons e evs ih =>
      intro t b v
      cases e with
      | str s =>
        obtain ⟨u, w, h1, h2, h3⟩ := ih t (b ++ s) v
        refine ⟨u, w, h1, ?_, h3⟩
        rw [← h2]
        show replay vecWriter cfg evs _ = _
        cases t <;> simp
      | line =>
        obtain ⟨u, w, h1, h2, h3⟩ := ih (t ++ [b]) [] v
        refine ⟨u, w, h1, ?_, h3⟩
        rw [← h2]
        show replay vecWriter cfg evs _ = _
        cases t <;> simp
      | trail => exact ih t b v
  simpa [VecState.new] using key evs [] [] v

end Genco
