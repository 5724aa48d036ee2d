import Verif.Proofs.Replay
import Verif.Spec.Writers

/-!
# Lemmas about writers
-/

set_option autoImplicit false

namespace Genco

open Spec

variable {ι σ : Type}

/-- Events as recorded calls. -/
def Ev.toCall : Ev → WCall
  | .str s => .str s
  | .line => .line
  | .trail => .trailing

theorem call_toCall (W : Writer σ) (cfg : Config) (e : Ev) (o : σ) :
    e.toCall.on W cfg o = e.call W cfg o := by cases e <;> rfl

theorem replay_recorder (cfg : Config) (evs : List Ev) (o : List WCall) :
    replay recorder cfg evs o = .ok (o ++ evs.map Ev.toCall) := by
  induction evs generalizing o with
  | nil => simp [replay]
  | cons e r ih =>
    have : replay recorder cfg (e :: r) o = replay recorder cfg r (o ++ [e.toCall]) := by
      cases e <;> rfl
    simp [this, ih]

/-- A replay either performs all events or stops at the first failing one. -/
theorem replay_cases (W : Writer σ) (cfg : Config) (evs : List Ev) (o : σ) :
    (∃ o', replay W cfg evs o = .ok o' ∧ Performs W cfg (evs.map Ev.toCall) o o') ∨
    (∃ p e q o1 o2, evs = p ++ e :: q ∧ Performs W cfg (p.map Ev.toCall) o o1 ∧
      e.toCall.on W cfg o1 = .error o2 ∧ replay W cfg evs o = .error o2) := by
  induction evs generalizing o with
  | nil => exact .inl ⟨o, rfl, .nil o⟩
  | cons e r ih =>
    simp only [replay]
    cases h : e.call W cfg o with
    | error o2 =>
      exact .inr ⟨[], e, r, o, o2, rfl, .nil o, by rw [call_toCall, h], rfl⟩
    | ok o1 =>
      have h' : e.toCall.on W cfg o = .ok o1 := by rw [call_toCall, h]
      rcases ih o1 with ⟨o', h1, h2⟩ | ⟨p, e', q, o2, o3, h1, h2, h3, h4⟩
      · exact .inl ⟨o', h1, .cons h' h2⟩
      · exact .inr ⟨e :: p, e', q, o2, o3, by simp [h1], .cons h' h2, h3, h4⟩

/-! ## Vector writer -/

theorem intercalate_concat (nl : Str) (t : List Str) (b s : Str) :
    nl.intercalate (t ++ [b ++ s]) = nl.intercalate (t ++ [b]) ++ s := by
  induction t with
  | nil => simp [List.intercalate]
  | cons x t ih =>
    cases t with
    | nil => simp [List.intercalate]
    | cons y t => simp [List.intercalate, List.intersperse] at ih ⊢; rw [ih]

theorem intercalate_concat_nil (nl : Str) (t : List Str) (b : Str) :
    nl.intercalate (t ++ [b] ++ [[]]) = nl.intercalate (t ++ [b]) ++ nl := by
  induction t with
  | nil => simp [List.intercalate, List.intersperse]
  | cons x t ih =>
    cases t with
    | nil => simp [List.intercalate, List.intersperse]
    | cons y t => simp [List.intercalate, List.intersperse] at ih ⊢; rw [ih]

theorem replay_vec (cfg : Config) (evs : List Ev) (hn : Ev.trail ∉ evs) (v : VecState) :
    ∃ v', replay vecWriter cfg evs v = .ok v' ∧
      ∀ nl : Str, nl.intercalate v'.intoVec = nl.intercalate v.intoVec ++ evText nl evs := by
  induction evs generalizing v with
  | nil => exact ⟨v, rfl, by simp [evText]⟩
  | cons e r ih =>
    have hr : Ev.trail ∉ r := fun h => hn (List.mem_cons_of_mem _ h)
    cases e with
    | str s =>
      obtain ⟨v', h1, h2⟩ := ih hr { v with lineBuffer := v.lineBuffer ++ s }
      refine ⟨v', h1, fun nl => ?_⟩
      rw [h2]
      simp [VecState.intoVec, intercalate_concat, evText]
    | line =>
      obtain ⟨v', h1, h2⟩ := ih hr { lineBuffer := [], target := v.target ++ [v.lineBuffer] }
      refine ⟨v', h1, fun nl => ?_⟩
      rw [h2]
      have := intercalate_concat_nil nl v.target v.lineBuffer
      simp only [VecState.intoVec]
      rw [this]
      simp [evText]
    | trail => simp at hn

theorem trail_not_flushEv (cfg : Config) (st : LSt) : Ev.trail ∉ flushEv cfg st := by
  unfold flushEv
  cases st.line.intoIndent <;> cases cfg.indentation <;> simp

theorem trail_not_actsEv (cfg : Config) (st : LSt) (acts : List Act) :
    Ev.trail ∉ actsEv cfg st acts := by
  induction acts generalizing st with
  | nil => simp [actsEv]
  | cons a r ih =>
    simp only [actsEv, List.mem_append, not_or]
    refine ⟨?_, ih _⟩
    cases a with
    | text s =>
      simp only [actEv]
      split
      · simp [trail_not_flushEv]
      · simp
    | _ => simp [actEv]

/-! ## Byte writer -/

theorem utf8_append (a b : Str) : utf8 (a ++ b) = utf8 a ++ utf8 b := by simp [utf8]

theorem replay_unlimited (cfg : Config) (evs : List Ev) (o : List UInt8) :
    replay (ioWriter unlimited) cfg evs o = .ok (o ++ utf8 (evText cfg.newline evs)) := by
  induction evs generalizing o with
  | nil => simp [replay, evText, utf8]
  | cons e r ih =>
    cases e <;>
      simp [replay, Ev.call, ioWriter, unlimited, Except.bind, evText, utf8_append] <;>
      (have := ih; simp only [ioWriter, unlimited] at this; simp [this])

theorem limited_append' (cap : Nat) (a b o : List UInt8) :
    limited cap (a ++ b) o = (limited cap a o).bind (limited cap b) := by
  by_cases h : o.length + a.length ≤ cap
  · simp only [limited, h, if_true, Except.bind, List.length_append, List.append_assoc]
    by_cases h2 : o.length + a.length + b.length ≤ cap
    · have : o.length + (a.length + b.length) ≤ cap := by omega
      simp only [h2, this, if_true]
    · have : ¬ (o.length + (a.length + b.length) ≤ cap) := by omega
      simp only [h2, this, if_false, List.take_append]
      have e1 : a.take (cap - o.length) = a := List.take_of_length_le (by omega)
      rw [e1]
      congr 4
      omega
  · have h2 : ¬ (o.length + (a.length + b.length) ≤ cap) := by omega
    simp only [limited, h, if_false, Except.bind, List.length_append, h2, List.take_append]
    have : cap - o.length - a.length = 0 := by omega
    simp [this]

theorem replay_limited (cap : Nat) (cfg : Config) (evs : List Ev) (o : List UInt8)
    (ho : o.length ≤ cap) :
    replay (ioWriter (limited cap)) cfg evs o = limited cap (utf8 (evText cfg.newline evs)) o := by
  induction evs generalizing o with
  | nil => simp [replay, evText, utf8, limited, ho]
  | cons e r ih =>
    have key : ∀ s : Str, (limited cap (utf8 s) o).bind (replay (ioWriter (limited cap)) cfg r) =
        limited cap (utf8 (s ++ evText cfg.newline r)) o := by
      intro s
      rw [utf8_append, limited_append']
      by_cases h : o.length + (utf8 s).length ≤ cap
      · have hl : limited cap (utf8 s) o = .ok (o ++ utf8 s) := by simp [limited, h]
        rw [hl]
        exact ih _ (by simpa using h)
      · have hl : limited cap (utf8 s) o = .error (o ++ (utf8 s).take (cap - o.length)) := by
          simp [limited, h]
        rw [hl]
        rfl
    cases e <;> exact key _

end Genco
