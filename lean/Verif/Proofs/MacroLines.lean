import Verif.Proofs.MacroText

/-!
# Tokens, one by one
-/

set_option autoImplicit false
set_option linter.unusedSectionVars false

namespace Genco.Macro

open Spec Spec.MacroFile

variable {ι E Env : Type}

theorem textOf_append (a b : List (Mark ι)) : textOf (a ++ b) = textOf a ++ textOf b := by
  induction a with
  | nil => rfl
  | cons m a ih =>
    cases m with
    | char c => exact congrArg (c :: ·) ih
    | call c => exact ih

theorem textOf_chars (s : Str) : textOf (s.map (Mark.char (ι := ι))) = s := by
  induction s with
  | nil => rfl
  | cons c s ih => exact congrArg (c :: ·) ih

theorem textOf_ws (w : List WsCall) : textOf (w.map (wsMark (ι := ι))) = [] := by
  induction w with
  | nil => rfl
  | cons c w ih => exact ih

theorem indentsOf_append (a b : List (Mark ι)) : indentsOf (a ++ b) = indentsOf a + indentsOf b := by
  induction a with
  | nil => simp [indentsOf]
  | cons m a ih =>
    cases m with
    | char c => exact ih
    | call c =>
      cases c with
      | indent =>
        show 1 + indentsOf (a ++ b) = 1 + indentsOf a + indentsOf b
        rw [ih, Int.add_assoc]
      | unindent =>
        show -1 + indentsOf (a ++ b) = -1 + indentsOf a + indentsOf b
        rw [ih, Int.add_assoc]
      | _ => exact ih

theorem indentsOf_chars (s : Str) : indentsOf (s.map (Mark.char (ι := ι))) = 0 := by
  induction s with
  | nil => rfl
  | cons c s ih => exact ih

theorem indentsOf_climb (w : List WsCall) : ∀ (d d' : Int), Climb (ι := ι) d d' (w.map wsMark) →
    d + indentsOf (w.map (wsMark (ι := ι))) = d' := by
  induction w with
  | nil => intro d d' h; have := h.1; simp [indentsOf]; exact this
  | cons c w ih =>
    intro d d' h
    have := ih _ _ h.2
    cases c
    · have e : d + 0 + indentsOf (w.map (wsMark (ι := ι))) = d' := this
      show d + indentsOf (w.map (wsMark (ι := ι))) = d'
      omega
    · have e : d + 0 + indentsOf (w.map (wsMark (ι := ι))) = d' := this
      show d + indentsOf (w.map (wsMark (ι := ι))) = d'
      omega
    · have e : d + 0 + indentsOf (w.map (wsMark (ι := ι))) = d' := this
      show d + indentsOf (w.map (wsMark (ι := ι))) = d'
      omega
    · have e : d + 1 + indentsOf (w.map (wsMark (ι := ι))) = d' := this
      show d + (1 + indentsOf (w.map (wsMark (ι := ι)))) = d'
      omega
    · have e : d + -1 + indentsOf (w.map (wsMark (ι := ι))) = d' := this
      show d + (-1 + indentsOf (w.map (wsMark (ι := ι)))) = d'
      omega

theorem indentsOf_gap {p : Nat} {past : List Nat} {stop start : Pos} {w : List WsCall}
    (h : gapBefore p past stop start = some w) :
    (depth p past : Int) + indentsOf (w.map (wsMark (ι := ι))) = levelAt p past stop start := by
  have := climbs_gap (ι := ι) (Env := Unit) h ()
  rw [perform_ws] at this
  exact indentsOf_climb w _ _ this

theorem lineColumns_cons (s : Tok) (r : List Tok) : ∃ c past, lineColumns (s :: r) = c :: past := by
  induction r generalizing s with
  | nil => exact ⟨_, _, rfl⟩
  | cons t r ih =>
    unfold lineColumns
    split
    · exact ih t
    · exact ⟨_, _, rfl⟩

/-- The whitespace before a token. -/
theorem gapBefore_for (t s : Tok) (r : List Tok) (p : Nat) (past : List Nat)
    (h : lineColumns (s :: r) = p :: past) (w : List WsCall) :
    gapBefore p past s.1.stop t.1.start = some w ↔ Follows t (s :: r) ∧ w = gapFor t (s :: r) := by
  unfold gapBefore
  have hl : levelOf (s :: r) = depth p past := by unfold levelOf; rw [h]
  have hf : Follows t (s :: r) ↔ (s.1.stop.line = t.1.start.line ∨
    s.1.stop.line < t.1.start.line ∧ (Legal t.1.start.column p past ∨ Falls t.1.start.column p past)) := by
    unfold Follows; rw [h]
  have hg : gapFor t (s :: r) = if s.1.stop.line = t.1.start.line then
      if s.1.stop.column < t.1.start.column then [.space] else []
    else if Falls t.1.start.column p past then []
    else breakCalls (levelOf (s :: r)) (levelOf (t :: s :: r)) (decide (s.1.stop.line + 1 < t.1.start.line)) := by
    unfold gapFor; rw [h]
  rw [hf, hg]
  by_cases h1 : s.1.stop.line = t.1.start.line
  · rw [if_pos h1, if_pos h1, Option.some.injEq]
    exact ⟨fun e => ⟨.inl h1, e.symm⟩, fun e => e.2.symm⟩
  · rw [if_neg h1, if_neg h1]
    by_cases h2 : t.1.start.line < s.1.stop.line
    · rw [if_pos h2]
      refine ⟨fun e => (by cases e), fun ⟨e, _⟩ => ?_⟩
      rcases e with e | e
      · exact absurd e h1
      · exact absurd e.1 (by omega)
    · rw [if_neg h2]
      have h3 : s.1.stop.line < t.1.start.line := by omega
      by_cases h4 : Falls t.1.start.column p past
      · rw [if_pos h4, if_pos h4, Option.some.injEq]
        exact ⟨fun e => ⟨.inr ⟨h3, .inr h4⟩, e.symm⟩, fun e => e.2.symm⟩
      · rw [if_neg h4, if_neg h4]
        have hlt : levelOf (t :: s :: r) = depth t.1.start.column (p :: past) := by
          unfold levelOf lineColumns
          rw [if_neg h1, h]
        rw [hl, hlt]
        have hb : decide (t.1.start.line - s.1.stop.line > 1) = decide (s.1.stop.line + 1 < t.1.start.line) := by
          by_cases hx : s.1.stop.line + 1 < t.1.start.line
          · rw [decide_eq_true hx, decide_eq_true (by omega)]
          · rw [decide_eq_false hx, decide_eq_false (by omega)]
        by_cases h5 : Legal t.1.start.column p past
        · rw [if_pos h5, hb, Option.some.injEq]
          exact ⟨fun e => ⟨.inr ⟨h3, .inl h5⟩, e.symm⟩, fun e => e.2.symm⟩
        · rw [if_neg h5]
          refine ⟨fun e => (by cases e), fun ⟨e, _⟩ => ?_⟩
          rcases e with e | ⟨_, e | e⟩
          · exact absurd e h1
          · exact absurd e h5
          · exact absurd e h4

/-- Marks of tokens behind others, which are given last one first. -/
def laterMarks (seen : List Tok) : List Tok → List (Mark ι)
  | [] => (List.replicate (levelOf seen) WsCall.unindent).map wsMark
  | t :: ts => (gapFor t seen).map wsMark ++ t.2.map .char ++ laterMarks (t :: seen) ts

/-- Every token may follow those before it. -/
def Follow (seen : List Tok) : List Tok → Prop
  | [] => True
  | t :: ts => Follows t seen ∧ Follow (t :: seen) ts

theorem laidOut_tokens (ts : List Tok) : ∀ (s : Tok) (r : List Tok) (p : Nat) (past : List Nat),
    lineColumns (s :: r) = p :: past → ∀ out,
    (laidOut (wsMark (ι := ι)) none p past s.1.stop (tokMarks ts) = some out ↔
      Follow (s :: r) ts ∧ out = laterMarks (s :: r) ts) := by
  induction ts with
  | nil =>
    intro s r p past h out
    have hl : levelOf (s :: r) = depth p past := by unfold levelOf; rw [h]
    show some _ = some out ↔ _
    rw [Option.some.injEq, laterMarks, hl]
    exact ⟨fun e => ⟨trivial, e.symm⟩, fun e => e.2.symm⟩
  | cons t ts ih =>
    intro s r p past h out
    show laidOut _ _ _ _ _ ((t.1, t.2.map Mark.char) :: tokMarks ts) = _ ↔ _
    have hc : ∀ x, (if s.1.stop.line = t.1.start.line then laidOut (wsMark (ι := ι)) none p past t.1.stop (tokMarks ts)
        else laidOut wsMark none t.1.start.column (p :: past) t.1.stop (tokMarks ts)) = some x ↔
        Follow (t :: s :: r) ts ∧ x = laterMarks (t :: s :: r) ts := by
      intro x
      by_cases hl : s.1.stop.line = t.1.start.line
      · rw [if_pos hl]
        exact ih t (s :: r) p past (by unfold lineColumns; rw [if_pos hl, h]) x
      · rw [if_neg hl]
        exact ih t (s :: r) _ _ (by unfold lineColumns; rw [if_neg hl, h]) x
    simp only [laidOut, Option.bind_eq_some_iff, Option.map_eq_some_iff]
    constructor
    · rintro ⟨w, hw, x, hx, rfl⟩
      obtain ⟨f1, rfl⟩ := (gapBefore_for t s r p past h w).1 hw
      obtain ⟨f2, rfl⟩ := (hc x).1 hx
      exact ⟨⟨f1, f2⟩, rfl⟩
    · rintro ⟨⟨f1, f2⟩, rfl⟩
      exact ⟨_, (gapBefore_for t s r p past h _).2 ⟨f1, rfl⟩, _, (hc _).2 ⟨f2, rfl⟩, rfl⟩

theorem block_tokens (ts : List Tok) (out : List (Mark ι)) :
    block wsMark none (tokMarks ts) = some out ↔ Follow [] ts ∧ out = laterMarks [] ts := by
  cases ts with
  | nil =>
    show some [] = some out ↔ _
    rw [Option.some.injEq]
    exact ⟨fun e => ⟨trivial, e.symm⟩, fun e => e.2.symm⟩
  | cons t ts =>
    show (laidOut _ none t.1.start.column [] t.1.stop (tokMarks ts)).map (t.2.map Mark.char ++ ·) = some out ↔ _
    rw [Option.map_eq_some_iff]
    constructor
    · rintro ⟨x, hx, rfl⟩
      obtain ⟨f, rfl⟩ := (laidOut_tokens ts t [] _ _ rfl x).1 hx
      exact ⟨⟨trivial, f⟩, rfl⟩
    · rintro ⟨⟨-, f⟩, rfl⟩
      exact ⟨_, (laidOut_tokens ts t [] _ _ rfl _).2 ⟨f, rfl⟩, rfl⟩

theorem follow_iff (ts : List Tok) : ∀ seen, Follow seen ts ↔
    ∀ a t b, ts = a ++ t :: b → Follows t (a.reverse ++ seen) := by
  induction ts with
  | nil =>
    intro seen
    exact ⟨fun _ a t b h => by simp at h, fun _ => trivial⟩
  | cons x ts ih =>
    intro seen
    rw [Follow, ih]
    constructor
    · rintro ⟨h1, h2⟩ a t b h
      cases a with
      | nil => cases h; exact h1
      | cons y a =>
        rw [List.cons_append] at h
        cases h
        have := h2 a t b rfl
        simpa using this
    · intro h
      refine ⟨h [] x ts rfl, fun a t b e => ?_⟩
      have := h (x :: a) t b (by rw [e]; rfl)
      simpa using this

theorem laterMarks_text (ts : List Tok) : ∀ seen, textOf (laterMarks (ι := ι) seen ts) = ts.flatMap (·.2) := by
  induction ts with
  | nil => intro seen; exact textOf_ws _
  | cons t ts ih =>
    intro seen
    rw [laterMarks, textOf_append, textOf_append, textOf_ws, textOf_chars, ih]
    rfl

/-- Level behind a gap. -/
theorem gapFor_level (t : Tok) (s : Tok) (r : List Tok) (h : Follows t (s :: r)) :
    (levelOf (s :: r) : Int) + indentsOf ((gapFor t (s :: r)).map (wsMark (ι := ι))) = levelOf (t :: s :: r) := by
  obtain ⟨p, past, hc⟩ := lineColumns_cons s r
  have hg := (gapBefore_for t s r p past hc _).2 ⟨h, rfl⟩
  have := indentsOf_gap (ι := ι) hg
  have hl : levelOf (s :: r) = depth p past := by unfold levelOf; rw [hc]
  have hl' : levelOf (t :: s :: r) = levelAt p past s.1.stop t.1.start := by
    unfold levelOf lineColumns levelAt
    by_cases h1 : s.1.stop.line = t.1.start.line
    · rw [if_pos h1, if_pos h1, hc]
    · rw [if_neg h1, if_neg h1, hc]
  rw [hl, hl']
  exact this

/-- The marks split at a token. -/
theorem laterMarks_split (a : List Tok) (t : Tok) (b : List Tok) : ∀ seen, Follow seen (a ++ t :: b) →
    ∃ X : List (Mark ι), laterMarks seen (a ++ t :: b) =
        X ++ (gapFor t (a.reverse ++ seen)).map wsMark ++ t.2.map .char ++ laterMarks (t :: (a.reverse ++ seen)) b ∧
      textOf X = a.flatMap (·.2) ∧
      (levelOf seen : Int) + indentsOf X = levelOf (a.reverse ++ seen) := by
  induction a with
  | nil =>
    intro seen h
    exact ⟨[], rfl, rfl, by simp [indentsOf]⟩
  | cons x a ih =>
    intro seen h
    obtain ⟨h1, h2⟩ := h
    obtain ⟨X, e, tx, lv⟩ := ih (x :: seen) h2
    have er : (x :: a).reverse ++ seen = a.reverse ++ x :: seen := by simp
    refine ⟨(gapFor x seen).map wsMark ++ x.2.map .char ++ X, ?_, ?_, ?_⟩
    · rw [er]
      show (gapFor x seen).map wsMark ++ x.2.map Mark.char ++ laterMarks (x :: seen) (a ++ t :: b) = _
      rw [e]
      simp
    · rw [textOf_append, textOf_append, textOf_ws, textOf_chars, tx]
      rfl
    · rw [er, ← lv, indentsOf_append, indentsOf_append, indentsOf_chars]
      cases seen with
      | nil =>
        have : levelOf [x] = 0 := rfl
        rw [this, show levelOf [] = 0 from rfl, show gapFor x [] = [] from rfl]
        simp [indentsOf]
      | cons s r =>
        have := gapFor_level (ι := ι) x s r h1
        omega

/-! ## Columns -/

theorem enclosing_sub (past : List Nat) : ∀ c, ∀ x ∈ enclosing c past, x ∈ past := by
  induction past with
  | nil => intro c x hx; cases hx
  | cons p past ih =>
    intro c x hx
    unfold enclosing at hx
    split at hx
    · rcases List.mem_cons.1 hx with rfl | hx
      · simp
      · exact List.mem_cons_of_mem _ (ih p x hx)
    · exact List.mem_cons_of_mem _ (ih c x hx)

theorem enclosing_nil (past : List Nat) : ∀ c, enclosing c past = [] → ∀ x ∈ past, c ≤ x := by
  induction past with
  | nil => intro c _ x hx; cases hx
  | cons p past ih =>
    intro c h x hx
    unfold enclosing at h
    split at h
    · cases h
    · rcases List.mem_cons.1 hx with rfl | hx
      · omega
      · exact ih c h x hx

theorem falls_iff {c p : Nat} {past : List Nat} (h : Legal c p past ∨ Falls c p past) :
    Falls c p past ↔ ∀ x ∈ p :: past, c < x := by
  constructor
  · rintro ⟨h1, h2⟩ x hx
    rcases List.mem_cons.1 hx with rfl | hx
    · exact h1
    · exact Nat.lt_of_lt_of_le h1 (enclosing_nil past p h2 x hx)
  · intro hx
    rcases h with h | h
    · exfalso
      rcases h with h | h | h
      · have := hx p (by simp); omega
      · have := hx p (by simp); omega
      · have := hx c (List.mem_cons_of_mem _ (enclosing_sub past p c h)); omega
    · exact h

end Genco.Macro
