import Verif.Proofs.Quoting

/-!
# Registrations do not matter for rendering
-/

set_option autoImplicit false

namespace Genco

open Spec

variable {ι σ : Type}

/-- One step of the item stage, with enough fuel everywhere. -/
theorem res_cons (L : Lang ι) (cfg : Config) (e : Bool) (head : Frame) (stack' : List Frame)
    (i : Item ι) (rest : List (Item ι)) :
    res L cfg e (head :: stack') (i :: rest) =
      match i with
      | .register _ _ => res L cfg e (head :: stack') rest
      | .literal s =>
        pre (if head.inQuote then texts (L.writeQuoted s.text) else [.text s.text])
          (res L cfg e (head :: stack') rest)
      | .openQuote ev =>
        if !head.inQuote then
          pre (texts (L.openQuote ev))
            (res L cfg e ({ head with hasEval := ev, inQuote := true } :: stack') rest)
        else if !ev then
          match (res L cfg true [Frame.default] rest).2 with
          | none => ([], none)
          | some rest' =>
            pre (texts (L.writeQuoted (renderActs cfg
                (texts (L.openQuote false) ++ (res L cfg true [Frame.default] rest).1 ++
                  texts (L.closeQuote false)))))
              (res L cfg e (head :: stack') rest')
        else ([], none)
      | .closeQuote =>
        if e then ([], some rest)
        else if head.inQuote then
          pre (texts (L.closeQuote head.hasEval))
            (res L cfg e ({ head with inQuote := false, hasEval := false } :: stack') rest)
        else ([], none)
      | .lang _ i => pre (texts (L.langItem i)) (res L cfg e (head :: stack') rest)
      | .push => pre [.push] (res L cfg e (head :: stack') rest)
      | .line => pre [.line] (res L cfg e (head :: stack') rest)
      | .space => pre [.space] (res L cfg e (head :: stack') rest)
      | .indentation n =>
        if n = 0 then res L cfg e (head :: stack') rest
        else pre [.indent n] (res L cfg e (head :: stack') rest)
      | .openEval =>
        if head.inQuote then
          match rest with
          | .literal s :: .closeEval :: rest' =>
            pre (texts (L.evalLiteral s.text)) (res L cfg e (head :: stack') rest')
          | _ => pre (texts L.startEval) (res L cfg e (⟨false, false, true⟩ :: head :: stack') rest)
        else ([], none)
      | .closeEval =>
        if head.endOnEval then pre (texts L.endEval) (res L cfg e stack' rest)
        else ([], none) := by
  unfold res
  rw [List.length_cons]
  cases i with
  | openQuote ev =>
    rw [resolve]
    simp only
    split
    · rfl
    · split
      · cases h : (resolve L cfg rest.length true [Frame.default] rest).2 with
        | none => rfl
        | some rest' =>
          simp only
          rw [resolve_fuel L cfg rest.length rest'.length _ _ rest'
            (resolve_length _ _ _ _ _ _ _ h) (Nat.le_refl _)]
      · rfl
  | openEval =>
    rcases rest with _ | ⟨i1, _ | ⟨i2, rest'⟩⟩
    · rfl
    · cases i1 <;> rfl
    · cases i1 with
      | literal s =>
        cases i2 with
        | closeEval =>
          cases hq : head.inQuote with
          | true =>
            rw [resolve_single _ _ _ _ _ _ hq]
            simp only [if_true]
            rw [resolve_fuel L cfg _ rest'.length _ _ rest' (by simp; omega) (Nat.le_refl _)]
          | false => rw [resolve]; simp [hq]
        | _ => rfl
      | _ => rfl
  | _ => rfl

theorem res_nil (L : Lang ι) (cfg : Config) (e : Bool) (st : List Frame) :
    res L cfg e st [] = ([], some []) := resolve_nil ..

/-- With the default treatment of single literals the look-ahead is irrelevant. -/
theorem res_openEval (L : Lang ι) (hD : ∀ s, L.evalLiteral s = L.startEval ++ [s] ++ L.endEval)
    (cfg : Config) (e : Bool) (head : Frame) (stack' : List Frame) (rest : List (Item ι))
    (hq : head.inQuote = true) :
    res L cfg e (head :: stack') (.openEval :: rest) =
      pre (texts L.startEval) (res L cfg e (⟨false, false, true⟩ :: head :: stack') rest) := by
  rw [res_cons]
  simp only [hq, if_true]
  split
  · rename_i s rest'
    rw [res_cons, res_cons]
    simp [hD, texts, pre]
  · rfl

/-- What is left is a part of what was given. -/
theorem resolve_suffix (L : Lang ι) (cfg : Config) (fuel : Nat) (e : Bool) (st : List Frame)
    (items r : List (Item ι)) (h : (resolve L cfg fuel e st items).2 = some r) :
    r <:+ items := by
  induction fuel generalizing e st items r with
  | zero => simp [resolve] at h; simp [h]
  | succ fuel ih =>
    cases items with
    | nil => simp [resolve] at h; simp [← h]
    | cons i rest =>
      cases st with
      | nil => simp [resolve] at h; simp [h]
      | cons head stack' =>
        simp only [resolve] at h
        have step : ∀ e st, (resolve L cfg fuel e st rest).2 = some r →
            r <:+ (i :: rest) := by
          intro e st h
          exact (ih _ _ _ _ h).trans (List.suffix_cons _ _)
        cases i with
        | openQuote e =>
          simp only at h
          split at h
          · exact step _ _ h
          · split at h
            · split at h
              · simp at h
              · rename_i rest' hr
                have h1 := ih _ _ _ _ hr
                have h2 := ih _ _ _ _ h
                exact (h2.trans h1).trans (List.suffix_cons _ _)
            · simp at h
        | closeQuote =>
          simp only at h
          split at h
          · simp only [Option.some.injEq] at h; simp [← h]
          · split at h
            · exact step _ _ h
            · simp at h
        | openEval =>
          simp only at h
          split at h
          · split at h
            · have := ih _ _ _ _ h
              exact ((this.trans (List.suffix_cons _ _)).trans (List.suffix_cons _ _)).trans
                (List.suffix_cons _ _)
            · exact step _ _ h
          · simp at h
        | closeEval =>
          simp only at h
          split at h
          · exact step _ _ h
          · simp at h
        | indentation n =>
          simp only at h
          split at h <;> exact step _ _ h
        | _ => exact step _ _ h

theorem unsplit_suffix {a b : List (Item ι)} (h : a <:+ b) (hb : Unsplit b) : Unsplit a := by
  obtain ⟨p, rfl⟩ := h
  intro before behind s q he hf
  exact hb (p ++ before) behind s q (by simp [he]) hf

/-- Not a registration. -/
def notRegister : Item ι → Bool
  | .register _ _ => false
  | _ => true

/-- The case of `openEval` below. -/
theorem res_openEval_filter (L : Lang ι) (cfg : Config) (e : Bool) (head : Frame)
    (stack' : List Frame) (rest : List (Item ι)) (hq : head.inQuote = true)
    (hU : Unsplit (.openEval :: rest))
    (hs : ∀ st r, r <:+ rest → bottomOk st = true → res L cfg e st (r.filter notRegister) =
      ((res L cfg e st r).1, (res L cfg e st r).2.map (List.filter notRegister)))
    (hb : bottomOk (head :: stack') = true) :
    res L cfg e (head :: stack') (.openEval :: rest.filter notRegister) =
      ((res L cfg e (head :: stack') (.openEval :: rest)).1,
        (res L cfg e (head :: stack') (.openEval :: rest)).2.map (List.filter notRegister)) := by
  have hU' : ∀ s q, rest.filter notRegister = .literal s :: .closeEval :: q →
      ∃ q', rest = .literal s :: .closeEval :: q' := by
    intro s q h
    refine hU [] rest s q rfl ?_
    rw [← h]
    congr 1
  by_cases hx : ∃ s q, rest = .literal s :: .closeEval :: q
  · obtain ⟨s, q, rfl⟩ := hx
    have hf : (Item.literal s :: .closeEval :: q).filter notRegister =
        .literal s :: .closeEval :: q.filter (notRegister (ι := ι)) := rfl
    have := hs (head :: stack') q
      ((List.suffix_cons _ _).trans (List.suffix_cons _ _)) hb
    have gen : ∀ r, res L cfg e (head :: stack') (.openEval :: .literal s :: .closeEval :: r) =
        pre (texts (L.evalLiteral s.text)) (res L cfg e (head :: stack') r) := by
      intro r
      rw [res_cons]
      simp only [hq, if_true]
    rw [hf, gen, gen, this]
    rfl
  · have hy : ∀ s q, rest.filter notRegister ≠ .literal s :: .closeEval :: q := by
      intro s q he
      obtain ⟨q', h⟩ := hU' s q he
      exact hx ⟨s, q', h⟩
    have gen : ∀ r : List (Item ι), (∀ s q, r ≠ .literal s :: .closeEval :: q) →
        res L cfg e (head :: stack') (.openEval :: r) =
          pre (texts L.startEval) (res L cfg e (⟨false, false, true⟩ :: head :: stack') r) := by
      intro r hr
      rw [res_cons]
      simp only [hq, if_true]
    rw [gen _ hy, gen rest (fun s q he => hx ⟨s, q, he⟩),
      hs _ rest (List.suffix_refl _) (bottomOk_push hb)]
    rfl

theorem res_filter (L : Lang ι) (cfg : Config) (n : Nat) (items : List (Item ι))
    (hD : (∀ s, L.evalLiteral s = L.startEval ++ [s] ++ L.endEval) ∨ Unsplit items)
    (hn : items.length ≤ n) (e : Bool) (st : List Frame) (hb : bottomOk st = true) :
    res L cfg e st (items.filter notRegister) =
      ((res L cfg e st items).1, (res L cfg e st items).2.map (List.filter notRegister)) := by
  induction n generalizing items e st with
  | zero =>
    have : items = [] := by simpa using hn
    subst this
    simp [res_nil]
  | succ n ih =>
    cases items with
    | nil => simp [res_nil]
    | cons i rest =>
      simp only [List.length_cons] at hn
      cases st with
      | nil => simp [bottomOk] at hb
      | cons head stack' =>
        have step : ∀ e st, bottomOk st = true → res L cfg e st (rest.filter notRegister) =
            ((res L cfg e st rest).1, (res L cfg e st rest).2.map (List.filter notRegister)) :=
          fun e st hb => ih rest (hD.imp id (unsplit_suffix (List.suffix_cons _ _))) (by omega)
            e st hb
        have prelem : ∀ (a : List Act) (r : List Act × Option (List (Item ι))),
            pre a (r.1, r.2.map (List.filter notRegister)) =
              ((pre a r).1, (pre a r).2.map (List.filter notRegister)) := fun a r => rfl
        cases i with
        | register p i =>
          rw [List.filter_cons_of_neg (by simp [notRegister]), step _ _ hb, res_cons]
        | openEval =>
          rw [List.filter_cons_of_pos (by rfl)]
          cases hq : head.inQuote with
          | true =>
            rcases hD with hD | hD
            · rw [res_openEval L hD _ _ _ _ _ hq, res_openEval L hD _ _ _ _ _ hq,
                step _ _ (bottomOk_push hb), prelem]
            · exact res_openEval_filter L cfg e head stack' rest hq hD
                (fun st r hr hb => ih r
                  (.inr (unsplit_suffix (hr.trans (List.suffix_cons _ _)) hD))
                  (by have := hr.length_le; omega) e st hb) hb
          | false =>
            rw [res_cons, res_cons]
            simp [hq]
        | closeEval =>
          rw [List.filter_cons_of_pos (by rfl), res_cons, res_cons]
          simp only
          split
          · rename_i he
            rw [step _ _ (bottomOk_cons hb he), prelem]
          · rfl
        | closeQuote =>
          rw [List.filter_cons_of_pos (by rfl), res_cons, res_cons]
          simp only
          split
          · rfl
          · split
            · rw [step _ ({ head with inQuote := false, hasEval := false } :: stack')
                (bottomOk_set hb rfl), prelem]
            · rfl
        | openQuote ev =>
          rw [List.filter_cons_of_pos (by rfl), res_cons, res_cons]
          simp only
          split
          · rw [step _ ({ head with hasEval := ev, inQuote := true } :: stack')
              (bottomOk_set hb rfl), prelem]
          · split
            · rw [step true [Frame.default] rfl]
              cases h : (res L cfg true [Frame.default] rest).2 with
              | none => rfl
              | some rest' =>
                have hl := resolve_length _ _ _ _ _ _ _ h
                have hw := resolve_suffix _ _ _ _ _ _ _ h
                simp only [Option.map_some]
                rw [ih rest' (hD.imp id (unsplit_suffix (hw.trans (List.suffix_cons _ _))))
                  (by omega) _ _ hb, prelem]
            · rfl
        | indentation k =>
          rw [List.filter_cons_of_pos (by rfl), res_cons, res_cons]
          simp only
          split
          · rw [step _ _ hb]
          · rw [step _ _ hb, prelem]
        | _ =>
          rw [List.filter_cons_of_pos (by rfl), res_cons, res_cons]
          simp only
          rw [step _ _ hb, prelem]

theorem resolveItems_filter_or (L : Lang ι) (cfg : Config) (items : List (Item ι))
    (hD : (∀ s, L.evalLiteral s = L.startEval ++ [s] ++ L.endEval) ∨ Unsplit items) :
    resolveItems L cfg (items.filter notRegister) = resolveItems L cfg items := by
  have h := res_filter L cfg items.length items hD (Nat.le_refl _) false [Frame.default] rfl
  unfold res at h
  simp only [resolveItems, h]
  cases (resolve L cfg items.length false [Frame.default] items).2 <;> rfl

theorem resolveItems_filter (L : Lang ι)
    (hD : ∀ s, L.evalLiteral s = L.startEval ++ [s] ++ L.endEval)
    (cfg : Config) (items : List (Item ι)) :
    resolveItems L cfg (items.filter notRegister) = resolveItems L cfg items :=
  resolveItems_filter_or L cfg items (.inl hD)

end Genco
