import Verif.Proofs.Seam

/-!
# Levels of indentation on the way

The levels that the requests of a stream pass through are levels that its items pass through.
-/

set_option autoImplicit false

namespace Genco

open Spec Tokens

variable {ι : Type}

theorem height_inside (s : List MFrame) {lower : MState} (hl : lower ≠ []) (i : Item ι) (r : List (Item ι)) {s' : MState}
    (h : markStep (s :: lower) i = some s') : height (s :: lower) (i :: r) = height s' r := by
  cases lower with
  | nil => exact absurd rfl hl
  | cons l ls => simp [height, h]

theorem height_behind (A B : List (Item ι)) : ∀ s s' : MState, A.foldlM markStep s = some s' →
    height s (A ++ B) = height s A + height s' B := by
  induction A with
  | nil =>
    intro s s' h
    cases h
    simp [height]
  | cons i A ih =>
    intro s s' h
    rw [List.foldlM_cons] at h
    cases hm : markStep s i with
    | none => rw [hm] at h; cases h
    | some t =>
      rw [hm] at h
      have := ih t s' h
      simp only [List.cons_append, height, hm, this, Int.add_assoc]

/-- Items of a string quoted inside a string: they lead out of it, or it is not closed. -/
theorem inner_run (L : Lang ι) (cfg : Config) : ∀ (n : Nat) (B : List (Item ι)), B.length ≤ n →
    ∀ (st : List Frame) (B' : List (Item ι)), bottomOk st = true → (res L cfg true st B).2 = some B' →
      B' = [] ∨ ∃ C, B = C ++ B' ∧ ∀ lower : MState, lower ≠ [] → C.foldlM markStep (st.map Frame.m :: lower) = some lower ∧
        height (st.map Frame.m :: lower) C = 0 := by
  intro n
  induction n with
  | zero =>
    intro B hB st B' _ h
    have : B = [] := by simpa using hB
    subst this
    rw [res_nil] at h
    exact .inl (by simpa using h.symm)
  | succ n ih =>
    intro B hB st B' hb h
    cases B with
    | nil => rw [res_nil] at h; exact .inl (by simpa using h.symm)
    | cons i B =>
    simp only [List.length_cons] at hB
    cases st with
    | nil => simp [bottomOk] at hb
    | cons head st =>
    -- one step inside
    have step : ∀ st2 : List Frame, bottomOk st2 = true → (res L cfg true st2 B).2 = some B' →
        (∀ lower : MState, markStep ((head :: st).map Frame.m :: lower) i = some (st2.map Frame.m :: lower)) →
        B' = [] ∨ ∃ C, i :: B = C ++ B' ∧ ∀ lower : MState, lower ≠ [] →
          C.foldlM markStep ((head :: st).map Frame.m :: lower) = some lower ∧
          height ((head :: st).map Frame.m :: lower) C = 0 := by
      intro st2 h2 hr hm
      rcases ih B (by omega) st2 B' h2 hr with h | ⟨C, rfl, hC⟩
      · exact .inl h
      · refine .inr ⟨i :: C, rfl, fun lower hl => ⟨?_, ?_⟩⟩
        · rw [List.foldlM_cons, hm lower]; exact (hC lower hl).1
        · rw [height_inside _ hl i C (hm lower)]; exact (hC lower hl).2
    rw [res_cons] at h
    cases i with
    | literal s => exact step _ hb (by simpa [pre] using h) (fun lower => by simp [markStep])
    | lang p i => exact step _ hb (by simpa [pre] using h) (fun lower => by simp [markStep])
    | register p i => exact step _ hb h (fun lower => by simp [markStep])
    | push => exact step _ hb (by simpa [pre] using h) (fun lower => by simp [markStep])
    | line => exact step _ hb (by simpa [pre] using h) (fun lower => by simp [markStep])
    | space => exact step _ hb (by simpa [pre] using h) (fun lower => by simp [markStep])
    | indentation k =>
      refine step _ hb ?_ (fun lower => by simp [markStep])
      by_cases hk : k = 0
      · simpa [hk] using h
      · simpa [hk, pre] using h
    | openQuote ev =>
      cases hq : head.inQuote with
      | false =>
        refine step ({ head with hasEval := ev, inQuote := true } :: st) (bottomOk_set hb rfl) (by simpa [hq, pre] using h)
          (fun lower => by simp [markStep, Frame.m, hq])
      | true =>
        cases ev with
        | true => simp [hq] at h
        | false =>
          simp only [hq, Bool.not_true, Bool.false_eq_true, if_false, Bool.not_false, if_true] at h
          cases hi : (res L cfg true [Frame.default] B).2 with
          | none => rw [hi] at h; cases h
          | some R =>
            rw [hi] at h
            have h : (res L cfg true (head :: st) R).2 = some B' := h
            rcases ih B (by omega) [Frame.default] R rfl hi with rfl | ⟨C, rfl, hC⟩
            · rw [res_nil] at h; exact .inl (by simpa using h.symm)
            · rcases ih R (by simp at hB; omega) (head :: st) B' hb h with h | ⟨D, rfl, hD⟩
              · exact .inl h
              · refine .inr ⟨.openQuote false :: (C ++ D), by simp, fun lower hl => ?_⟩
                have hm : markStep ((head :: st).map Frame.m :: lower) (Item.openQuote false : Item ι) =
                    some ([Frame.default].map Frame.m :: (head :: st).map Frame.m :: lower) := by
                  simp [markStep, Frame.m, hq, Frame.default]
                obtain ⟨c1, c2⟩ := hC ((head :: st).map Frame.m :: lower) (by simp)
                refine ⟨?_, ?_⟩
                · rw [List.foldlM_cons, hm, Option.bind_eq_bind, Option.bind_some, List.foldlM_append, c1]
                  exact (hD lower hl).1
                · rw [height_inside _ hl _ _ hm, height_behind C D _ _ c1, c2, (hD lower hl).2]
                  rfl
    | closeQuote =>
      simp only [if_true] at h
      cases h
      refine .inr ⟨[.closeQuote], rfl, fun lower hl => ?_⟩
      cases lower with
      | nil => exact absurd rfl hl
      | cons l ls => simp [markStep, height]
    | openEval =>
      cases hq : head.inQuote with
      | false => simp [hq] at h
      | true =>
        simp only [hq, if_true] at h
        split at h
        · rename_i s rest'
          have h : (res L cfg true (head :: st) rest').2 = some B' := h
          rcases ih rest' (by simp at hB; omega) (head :: st) B' hb h with h | ⟨D, rfl, hD⟩
          · exact .inl h
          · refine .inr ⟨.openEval :: .literal s :: .closeEval :: D, rfl, fun lower hl => ?_⟩
            have m1 : markStep ((head :: st).map Frame.m :: lower) (Item.openEval : Item ι) =
                some ((⟨false, true⟩ :: (head :: st).map Frame.m) :: lower) := by
              simp [markStep, Frame.m, hq]
            have m2 : markStep ((⟨false, true⟩ :: (head :: st).map Frame.m) :: lower) (Item.literal s : Item ι) =
                some ((⟨false, true⟩ :: (head :: st).map Frame.m) :: lower) := by simp [markStep]
            have m3 : markStep ((⟨false, true⟩ :: (head :: st).map Frame.m) :: lower) (Item.closeEval : Item ι) =
                some ((head :: st).map Frame.m :: lower) := by simp [markStep]
            refine ⟨?_, ?_⟩
            · rw [List.foldlM_cons, m1, Option.bind_eq_bind, Option.bind_some, List.foldlM_cons, m2, Option.bind_eq_bind,
                Option.bind_some, List.foldlM_cons, m3]
              exact (hD lower hl).1
            · rw [height_inside _ hl _ _ m1, height_inside _ hl _ _ m2, height_inside _ hl _ _ m3]
              exact (hD lower hl).2
        · exact step (⟨false, false, true⟩ :: head :: st) hb (by simpa [pre] using h)
            (fun lower => by simp [markStep, Frame.m, hq])
    | closeEval =>
      cases hq : head.endOnEval with
      | false => simp [hq] at h
      | true =>
        exact step st (bottomOk_cons hb hq) (by simpa [hq, pre] using h) (fun lower => by simp [markStep, Frame.m, hq])

theorem prefix_cut {α : Type} {q x y : List α} (h : q <+: x ++ y) : q <+: x ∨ ∃ q', q = x ++ q' ∧ q' <+: y := by
  by_cases hl : q.length ≤ x.length
  · exact .inl (List.prefix_of_prefix_length_le h (List.prefix_append x y) hl)
  · obtain ⟨q', rfl⟩ := List.prefix_of_prefix_length_le (List.prefix_append x y) h (by omega)
    exact .inr ⟨q', rfl, (List.prefix_append_right_inj x).1 h⟩

theorem prefix_one {q : List Act} {a : Act} (h : q <+: [a]) : q = [a] ∨ q.all (fun a => actInd a = 0) = true := by
  cases q with
  | nil => exact .inr rfl
  | cons b q =>
    obtain ⟨e, h2⟩ := List.cons_prefix_cons.1 h
    have := List.prefix_nil.1 h2
    subst e this
    exact .inl rfl

/-- The levels on the way. -/
theorem rise (L : Lang ι) (cfg : Config) : ∀ (n : Nat) (B : List (Item ι)), B.length ≤ n → ∀ (st : List Frame),
    bottomOk st = true → ∀ q : List Act, q <+: (res L cfg false st B).1 →
      ∃ A, A <+: B ∧ (q.map actInd).sum = height [st.map Frame.m] A := by
  intro n
  induction n with
  | zero =>
    intro B hB st _ q h
    have : B = [] := by simpa using hB
    subst this
    rw [res_nil] at h
    exact ⟨[], by simp, by simp [List.prefix_nil.1 h, height]⟩
  | succ n ih =>
    intro B hB st hb q h
    cases B with
    | nil => rw [res_nil] at h; exact ⟨[], by simp, by simp [List.prefix_nil.1 h, height]⟩
    | cons i B =>
    simp only [List.length_cons] at hB
    cases st with
    | nil => simp [bottomOk] at hb
    | cons head st =>
    have nothing : q.all (fun a => actInd a = 0) = true →
        ∃ A, A <+: i :: B ∧ (q.map actInd).sum = height [(head :: st).map Frame.m] A := by
      intro h
      refine ⟨[], by simp, ?_⟩
      rw [height]
      rw [List.map_congr_left (g := fun _ => (0 : Int)) (fun a ha => by simpa using List.all_eq_true.1 h a ha)]
      simp
    have texts0 : ∀ l : List Str, q <+: texts l → q.all (fun a => actInd a = 0) = true := by
      intro l hq
      rw [List.all_eq_true]
      intro a ha
      obtain ⟨s, -, rfl⟩ := List.mem_map.1 (hq.subset ha)
      rfl
    -- one step outside
    have step : ∀ (x : List Act) (st2 : List Frame), bottomOk st2 = true → q <+: x ++ (res L cfg false st2 B).1 →
        markStep [(head :: st).map Frame.m] i = some [st2.map Frame.m] → (x.map actInd).sum = indOf i →
        (q <+: x → q = x ∨ q.all (fun a => actInd a = 0) = true) →
        ∃ A, A <+: i :: B ∧ (q.map actInd).sum = height [(head :: st).map Frame.m] A := by
      intro x st2 h2 hq hm hx hp
      have whole : ∀ q', q = x ++ q' → q' <+: (res L cfg false st2 B).1 →
          ∃ A, A <+: i :: B ∧ (q.map actInd).sum = height [(head :: st).map Frame.m] A := by
        intro q' e hq'
        obtain ⟨A, a1, a2⟩ := ih B (by omega) st2 h2 q' hq'
        refine ⟨i :: A, List.cons_prefix_cons.2 ⟨rfl, a1⟩, ?_⟩
        rw [e, List.map_append, List.sum_append, hx, a2]
        simp only [height, hm]
      rcases prefix_cut hq with hq | ⟨q', e, hq'⟩
      · rcases hp hq with e | hz
        · exact whole [] (by simpa using e) (by simp)
        · exact nothing hz
      · exact whole q' e hq'
    rw [res_cons] at h
    cases i with
    | literal s =>
      simp only [pre] at h
      refine step _ _ hb h (by simp [markStep]) ?_ ?_
      · split
        · exact sum_texts _
        · rfl
      · intro hq
        right
        split at hq
        · exact texts0 _ hq
        · exact texts0 [s.text] hq
    | lang p i =>
      exact step _ _ hb h (by simp [markStep]) (sum_texts _) (fun hq => .inr (texts0 _ hq))
    | register p i =>
      exact step [] _ hb h (by simp [markStep]) rfl (fun hq => .inl (List.prefix_nil.1 hq))
    | push =>
      exact step _ _ hb h (by simp [markStep]) rfl (fun hq => prefix_one hq)
    | line =>
      exact step _ _ hb h (by simp [markStep]) rfl (fun hq => prefix_one hq)
    | space =>
      exact step _ _ hb h (by simp [markStep]) rfl (fun hq => prefix_one hq)
    | indentation k =>
      by_cases hk : k = 0
      · simp only [hk, if_true] at h
        exact step [] _ hb h (by simp [markStep]) (by simp [hk, indOf]) (fun hq => .inl (List.prefix_nil.1 hq))
      · simp only [hk, if_false] at h
        exact step [.indent k] _ hb h (by simp [markStep]) (by simp [actInd, indOf])
          (fun hq => prefix_one hq)
    | openQuote ev =>
      cases hq : head.inQuote with
      | false =>
        simp only [hq, Bool.not_false, if_true] at h
        exact step _ ({ head with hasEval := ev, inQuote := true } :: st) (bottomOk_set hb rfl) h
          (by simp [markStep, Frame.m, hq]) (sum_texts _) (fun hq => .inr (texts0 _ hq))
      | true =>
        cases ev with
        | true =>
          simp only [hq, Bool.not_true, Bool.false_eq_true, if_false] at h
          exact nothing (by simp [List.prefix_nil.1 h])
        | false =>
          simp only [hq, Bool.not_true, Bool.false_eq_true, if_false, Bool.not_false, if_true] at h
          cases hi : (res L cfg true [Frame.default] B).2 with
          | none => rw [hi] at h; exact nothing (by simp [List.prefix_nil.1 h])
          | some R =>
            rw [hi] at h
            simp only [pre] at h
            rcases prefix_cut h with h | ⟨q', rfl, hq'⟩
            · exact nothing (texts0 _ h)
            · rcases inner_run L cfg B.length B (Nat.le_refl _) [Frame.default] R rfl hi with rfl | ⟨C, rfl, hC⟩
              · rw [res_nil] at hq'
                rw [List.prefix_nil.1 hq', List.append_nil]
                exact ⟨[], by simp, by rw [height]; exact sum_texts _⟩
              · obtain ⟨A, a1, a2⟩ := ih R (by simp at hB; omega) (head :: st) hb q' hq'
                refine ⟨.openQuote false :: (C ++ A), List.cons_prefix_cons.2 ⟨rfl, (List.prefix_append_right_inj C).2 a1⟩, ?_⟩
                obtain ⟨c1, c2⟩ := hC [(head :: st).map Frame.m] (by simp)
                have hm : markStep [(head :: st).map Frame.m] (Item.openQuote false : Item ι) =
                    some ([Frame.default].map Frame.m :: [(head :: st).map Frame.m]) := by
                  simp [markStep, Frame.m, hq, Frame.default]
                rw [List.map_append, List.sum_append, sum_texts, a2]
                simp only [height, hm]
                rw [height_behind C A _ _ c1, c2]
                simp [indOf]
    | closeQuote =>
      simp only [Bool.false_eq_true, if_false] at h
      cases hq : head.inQuote with
      | false =>
        simp only [hq, Bool.false_eq_true, if_false] at h
        exact nothing (by simp [List.prefix_nil.1 h])
      | true =>
        simp only [hq, if_true] at h
        exact step _ ({ head with inQuote := false, hasEval := false } :: st) (bottomOk_set hb rfl) h
          (by simp [markStep, Frame.m, hq]) (sum_texts _) (fun hq => .inr (texts0 _ hq))
    | openEval =>
      cases hq : head.inQuote with
      | false =>
        simp only [hq, Bool.false_eq_true, if_false] at h
        exact nothing (by simp [List.prefix_nil.1 h])
      | true =>
        simp only [hq, if_true] at h
        split at h
        · rename_i s rest'
          simp only [pre] at h
          rcases prefix_cut h with h | ⟨q', rfl, hq'⟩
          · exact nothing (texts0 _ h)
          · obtain ⟨A, a1, a2⟩ := ih rest' (by simp at hB; omega) (head :: st) hb q' hq'
            refine ⟨.openEval :: .literal s :: .closeEval :: A, by simpa [List.cons_prefix_cons] using a1, ?_⟩
            rw [List.map_append, List.sum_append, sum_texts, a2]
            simp [height, markStep, Frame.m, hq, indOf]
        · exact step _ (⟨false, false, true⟩ :: head :: st) hb h (by simp [markStep, Frame.m, hq]) (sum_texts _)
            (fun hq => .inr (texts0 _ hq))
    | closeEval =>
      cases hq : head.endOnEval with
      | false =>
        simp only [hq, Bool.false_eq_true, if_false] at h
        exact nothing (by simp [List.prefix_nil.1 h])
      | true =>
        simp only [hq, if_true] at h
        exact step _ st (bottomOk_cons hb hq) h (by simp [markStep, Frame.m, hq]) (sum_texts _)
          (fun hq => .inr (texts0 _ hq))

end Genco
