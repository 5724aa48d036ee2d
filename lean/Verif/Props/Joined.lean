import Verif.Props.Extend
import Verif.Proofs.Series
import Verif.Proofs.Rise
import Verif.Proofs.Shift
import Mathlib.Data.List.Infix

/-!
# C111: code on lines of its own is laid out on its own

Two pieces of code with a line break between them, any number of them, and programs of nested blocks.
-/

set_option autoImplicit false

namespace Genco.Props

open Genco Spec Tokens

variable {ι : Type}

/-- The item ends with text: a text or an item of the language that shows, or the end of a string, if the language
has a delimiter for it. -/
def Ends (L : Lang ι) : Item ι → Prop
  | .literal s => s.text ≠ []
  | .lang _ i => (L.langItem i).flatten ≠ []
  | .closeQuote => ∀ e, (L.closeQuote e).flatten ≠ []
  | _ => False

/-- A piece of code: it ends with text outside of all strings, at the level of indentation `h`. -/
def Segment (L : Lang ι) (h : Int) (cs : List (Call ι)) : Prop :=
  (∃ r e, cs.flatMap callItems = r ++ [e] ∧ Ends L e) ∧ marks (history cs).items = some [[⟨false, false⟩]] ∧
    height [[⟨false, false⟩]] (history cs).items = h

/-! ## The end of a piece -/

theorem ended {L : Lang ι} {cs : List (Call ι)} (bs : List (Call ι)) (e : Item ι) (h : cs = bs ++ [.append e])
    (he : Ends L e) : ∃ r e, cs.flatMap callItems = r ++ [e] ∧ Ends L e :=
  ⟨bs.flatMap callItems, e, by simp [h, callItems], he⟩

theorem appended_items (l : List (Item ι)) : (l.map Call.append).flatMap callItems = l := by
  induction l with
  | nil => rfl
  | cons i l ih => simp only [List.map_cons, List.flatMap_cons, ih]; rfl

theorem history_appended {cs : List (Call ι)} {r : List (Item ι)} {e : Item ι} (h : cs.flatMap callItems = r ++ [e]) :
    history cs = history (r.map Call.append ++ [.append e]) := by
  rw [history_eq, history_eq, h, List.flatMap_append, appended_items]
  rfl

theorem history_ended (bs : List (Call ι)) (e : Item ι) (he : isWs e = false) :
    ∃ e', erase e' = erase e ∧ isWs e' = false ∧ (history (bs ++ [.append e])).rev = e' :: (history bs).rev := by
  obtain ⟨j, h1, h2, h3⟩ := item_closed (history bs) e he
  exact ⟨j, h2, h1, by rw [← h3]; simp [history, Call.run]⟩

theorem ends_ws {L : Lang ι} {e : Item ι} (h : Ends L e) : isWs e = false := by
  cases e <;> first | rfl | exact absurd h id

theorem ends_erase {L : Lang ι} {e e' : Item ι} (h : Ends L e) (he : erase e' = erase e) : Ends L e' := by
  cases e <;> cases e' <;> simp_all [Ends, erase]

/-- Outside of strings it is forgotten whether there were evaluations in the last of them. -/
theorem res_outside (L : Lang ι) (cfg : Config) (x y e : Bool) (st : List Frame) (B : List (Item ι)) (en : Bool) :
    res L cfg e (⟨false, x, en⟩ :: st) B = res L cfg e (⟨false, y, en⟩ :: st) B := by
  induction B with
  | nil => simp [res, resolve]
  | cons i B ih =>
    rw [res_cons, res_cons]
    cases i <;> simp [ih]

theorem texts_state (l : List Str) : ∀ (st : LSt), l.flatten ≠ [] → actsSt st (texts l) = ⟨.none, 0, st.indent⟩ := by
  induction l with
  | nil => exact fun _ h => absurd rfl h
  | cons s l ih =>
    intro st h
    by_cases hs : s = []
    · subst hs
      simpa [texts, actsSt, actSt] using ih st (by simpa using h)
    · by_cases hl : l.flatten = []
      · have : ∀ (l : List Str) (st : LSt), l.flatten = [] → actsSt st (texts l) = st := by
          intro l
          induction l with
          | nil => exact fun _ _ => rfl
          | cons t l ih =>
            intro st h
            simp only [List.flatten_cons, List.append_eq_nil_iff] at h
            simpa [texts, actsSt, actSt, h.1] using ih st h.2
        show actsSt (actSt st (.text s)) (texts l) = _
        rw [this l _ hl]
        simp [actSt, hs, LSt.flushed]
      · show actsSt (actSt st (.text s)) (texts l) = _
        rw [ih _ hl]
        simp [actSt, hs, LSt.flushed]

theorem marks_open (A : List (Item ι)) : ∀ s s' : MState, A.foldlM markStep s = some s' →
    (∀ l ∈ s.tail, ∃ f fs, l = f :: fs ∧ f.inQuote = true) → ∀ l ∈ s'.tail, ∃ f fs, l = f :: fs ∧ f.inQuote = true := by
  induction A with
  | nil =>
    intro s s' h hs
    cases h
    exact hs
  | cons i A ih =>
    intro s s' h hs
    rw [List.foldlM_cons] at h
    cases hx : markStep s i with
    | none => rw [hx] at h; cases h
    | some s1 =>
      rw [hx] at h
      refine ih s1 s' h ?_
      unfold markStep at hx
      split at hx
      · split at hx
        · cases hx; exact hs
        · split at hx
          · cases hx
          · rename_i hq _
            cases hx
            intro l hl
            simp only [List.tail_cons, List.mem_cons] at hl
            rcases hl with rfl | hl
            · exact ⟨_, _, rfl, by simpa using hq⟩
            · exact hs l hl
      · split at hx
        · cases hx; exact fun l hl => by simp at hl
        · cases hx
      · cases hx
        exact fun l hl => hs l (by simp_all)
      · split at hx
        · cases hx; exact hs
        · cases hx
      · split at hx
        · cases hx; exact hs
        · cases hx
      · cases hx; exact hs

/-- What a piece asks for: all of it can be told from the items behind it, and behind it a line is going on. -/
theorem piece_acts (L : Lang ι) (cfg : Config) (h : Int) (cs : List (Call ι)) (hp : Segment L h cs) :
    ∃ p : List Act, actsSt .new p = ⟨.none, 0, h⟩ ∧ resolveItems L cfg (history cs).items = (p, some ()) ∧
      ∀ B, Safe B → resolveItems L cfg ((history cs).items ++ B) =
        (p ++ (resolveItems L cfg B).1, (resolveItems L cfg B).2) := by
  obtain ⟨⟨r, e, hr, he⟩, hm, hh⟩ := hp
  rw [history_appended hr] at hm hh ⊢
  obtain ⟨bs, hbs⟩ : ∃ bs : List (Call ι), bs = r.map Call.append := ⟨_, rfl⟩
  rw [← hbs] at hm hh ⊢
  obtain ⟨p, st', s1, s2, s3, s4⟩ := (seam L cfg _ _ (Nat.le_refl _) [Frame.default] [] _ rfl hm).1 rfl
  have s3 : (p.map actInd).sum = h := s3.trans hh
  obtain ⟨head, rfl⟩ : ∃ head, st' = [head] := by
    have := congrArg List.length s1
    rw [List.length_map] at this
    exact List.length_eq_one_iff.1 this
  have hhead : head = ⟨false, head.hasEval, false⟩ := by
    obtain ⟨a, b, c⟩ := head
    simp only [List.map_cons, List.map_nil, Frame.m, List.cons.injEq, MFrame.mk.injEq, and_true] at s1
    simp [s1.1, s1.2]
  have hall : ∀ B, Safe B → resolveItems L cfg ((history (bs ++ [.append e])).items ++ B) =
        (p ++ (resolveItems L cfg B).1, (resolveItems L cfg B).2) := by
    intro B hB
    have := s4 B hB
    rw [hhead, res_outside L cfg head.hasEval false] at this
    unfold res at this
    simp only [resolveItems, this]
    rfl
  have h0 : resolveItems L cfg (history (bs ++ [.append e])).items = (p, some ()) := by
    have := hall [] ⟨by simp, by simp⟩
    rw [List.append_nil] at this
    rw [this]
    simp [resolveItems, resolve]
  refine ⟨p, ?_, h0, hall⟩
  suffices hl : ∃ q l, p = q ++ texts l ∧ l.flatten ≠ [] by
    obtain ⟨q, l, rfl, hl⟩ := hl
    have hi : (actsSt .new (q ++ texts l)).indent = h := by rw [actsSt_spec]; exact s3
    rw [actsSt_append, texts_state l _ hl] at hi ⊢
    simp only at hi
    rw [hi]
  obtain ⟨e', e1, e2, e3⟩ := history_ended bs e (ends_ws he)
  have he' := ends_erase he e1
  have hit : (history (bs ++ [.append e])).items = (history bs).items ++ [e'] := by simp [items, e3]
  rw [hit] at hm h0
  rw [marks, List.foldlM_append] at hm
  cases hb : (history bs).items.foldlM markStep [[⟨false, false⟩]] with
  | none => rw [hb] at hm; cases hm
  | some s =>
  rw [hb, Option.bind_eq_bind, Option.bind_some] at hm
  have hm : markStep s e' = some [[⟨false, false⟩]] := by
    rw [List.foldlM_cons] at hm
    cases hx : markStep s e' with
    | none => rw [hx] at hm; cases hm
    | some s1 => rw [hx] at hm; exact hm
  have ho := marks_open _ _ _ hb (by simp)
  obtain ⟨f, hs, hf⟩ : ∃ f : MFrame, s = [[f]] ∧ (e' = .closeQuote → f.inQuote = true) ∧ (e' ≠ .closeQuote → f.inQuote = false) := by
    cases e' with
    | literal t => exact ⟨_, by simpa [markStep] using hm, by simp, by simp⟩
    | lang a i => exact ⟨_, by simpa [markStep] using hm, by simp, by simp⟩
    | closeQuote =>
      match s, hm, ho with
      | [], hm, _ => simp [markStep] at hm
      | [[]], hm, _ => simp [markStep] at hm
      | [f :: fs], hm, _ =>
        simp only [markStep] at hm
        split at hm
        · rename_i hq
          simp only [Option.some.injEq, List.cons.injEq, and_true] at hm
          exact ⟨f, by rw [hm.2], fun _ => hq, by simp⟩
        · cases hm
      | _ :: l :: ls, hm, ho =>
        simp only [markStep, Option.some.injEq, List.cons.injEq] at hm
        obtain ⟨f, fs, h1, h2⟩ := ho l (by simp)
        rw [hm.1] at h1
        simp only [List.cons.injEq] at h1
        rw [← h1.1] at h2
        cases h2
    | _ => exact absurd he' id
  subst hs
  obtain ⟨q, st', t1, -, -, t4⟩ := (seam L cfg _ _ (Nat.le_refl _) [Frame.default] [] [f] rfl hb).1 rfl
  obtain ⟨g, rfl⟩ : ∃ g, st' = [g] := by
    have := congrArg List.length t1
    rw [List.length_map] at this
    exact List.length_eq_one_iff.1 this
  have hg : g.inQuote = f.inQuote := by
    have : g.m = f := by simpa using t1
    rw [← this]; rfl
  have := t4 [e'] (by
    refine ⟨?_, by simp⟩
    rintro r hr
    cases hr
    exact he')
  rw [res_cons] at this
  unfold res at this
  simp only [resolveItems] at h0
  cases e' with
  | literal t =>
    have hq : g.inQuote = false := hg.trans (hf.2 (by simp))
    rw [this] at h0
    simp only [hq, pre, resolve_nil] at h0
    exact ⟨q, [t.text], by simpa [texts] using (congrArg Prod.fst h0).symm, by simpa [Ends] using he'⟩
  | lang a i =>
    rw [this] at h0
    simp only [pre, resolve_nil] at h0
    exact ⟨q, L.langItem i, by simpa [texts] using (congrArg Prod.fst h0).symm, he'⟩
  | closeQuote =>
    have hq : g.inQuote = true := hg.trans (hf.1 rfl)
    rw [this] at h0
    simp only [hq, pre, resolve_nil] at h0
    exact ⟨q, L.closeQuote g.hasEval, by simpa [texts] using (congrArg Prod.fst h0).symm, he' _⟩
  | _ => exact absurd he' id

/-! ## The gap -/

theorem soft_state (r : List (Item ι)) (hs : ∀ i ∈ r, isSoft i = true) : ∀ st : LSt, st.line ≠ .initial →
    (actsSt st (r.map softAct)).line ≠ .initial ∧ (actsSt st (r.map softAct)).indent = st.indent := by
  induction r with
  | nil => exact fun st h => ⟨h, rfl⟩
  | cons i r ih =>
    intro st h
    have hstep : (actSt st (softAct i)).line ≠ .initial ∧ (actSt st (softAct i)).indent = st.indent := by
      obtain ⟨l, sp, ind⟩ := st
      have := hs i (by simp)
      cases i <;> simp [isSoft] at this <;> cases l <;> simp_all [softAct, actSt]
    have := ih (fun j hj => hs j (by simp [hj])) (actSt st (softAct i)) hstep.1
    exact ⟨this.1, this.2.trans hstep.2⟩

/-- The whitespace that is asked for behind whitespace calls with a line break. -/
theorem gap_state (v : List WsCall) (r : List (Item ι)) (hr : GapInv v r) (h : Int)
    (hb : 0 < gapBreaks v.reverse) (hs : gapSpaces v.reverse = 0) :
    actsSt ⟨.none, 0, h⟩ ((if net v ≠ 0 then [Act.indent (net v)] else []) ++ (r.map softAct).reverse) =
      ⟨if gapBreaks v.reverse = 2 then .line else .push, 0, h + net v⟩ := by
  obtain ⟨t, rfl, ht⟩ := hr
  have hS : sinceInd v.reverse = (v.takeWhile (fun c => !c.isInd)).reverse := by simp [sinceInd]
  have hv : v.head? ≠ some .space := by
    intro hv
    simp [gapSpaces, hv] at hs
  simp only [hv, if_false, List.nil_append]
  have h1 : ∃ l, l ≠ .initial ∧ actsSt ⟨.none, 0, h⟩ (if net v ≠ 0 then [Act.indent (net v)] else []) = ⟨l, 0, h + net v⟩ ∧
      (net v ≠ 0 → l = .push) := by
    by_cases hn : net v = 0
    · exact ⟨.none, by simp, by simp [hn, actsSt], by simp [hn]⟩
    · exact ⟨.push, by simp, by simp [hn, actsSt, actSt], by simp⟩
  obtain ⟨l, l1, l2, l3⟩ := h1
  rw [actsSt_append, l2]
  simp only [gapBreaks, hS, List.mem_reverse, net_reverse] at hb ⊢
  by_cases hl : WsCall.line ∈ v.takeWhile (fun c => !c.isInd)
  · rw [if_pos hl] at ht
    obtain ⟨t', rfl, ht'⟩ := ht
    simp only [hl, if_true]
    rw [List.map_cons, List.reverse_cons, actsSt_append, ← List.map_reverse]
    obtain ⟨k1, k2⟩ := soft_state t'.reverse (fun i hi => ht' i (List.mem_reverse.1 hi)) ⟨l, 0, h + net v⟩ l1
    simp only [softAct, actsSt]
    generalize actsSt ⟨l, 0, h + net v⟩ (t'.reverse.map softAct) = u at k1 k2
    obtain ⟨ul, us, ui⟩ := u
    simp only at k1 k2
    subst k2
    cases ul <;> simp_all [actSt]
  · rw [if_neg hl] at ht
    simp only [hl, if_false] at hb ⊢
    by_cases hp : WsCall.push ∈ v.takeWhile (fun c => !c.isInd)
    · rw [if_pos hp] at ht
      subst ht
      simp only [hp, true_or, if_true]
      have : l ≠ .line := by
        by_cases hn : net v = 0
        · rintro rfl; simp [hn, actsSt] at l2
        · rw [l3 hn]; simp
      cases l <;> simp_all [actsSt, actSt, softAct]
    · rw [if_neg hp] at ht
      subst ht
      by_cases hn : net v = 0
      · simp [hp, hn] at hb
      · simp [hp, hn, actsSt, l3 hn]

theorem vecActs_target (cfg : Config) (acts : List Act) : ∀ (st : LSt) (b : Str) (t0 t : List Str),
    (vecActs cfg st ⟨b, t0 ++ t⟩ acts).intoVec = t0 ++ (vecActs cfg st ⟨b, t⟩ acts).intoVec := by
  induction acts with
  | nil => exact fun st b t0 t => by simp [vecActs, VecState.intoVec]
  | cons a acts ih =>
    intro st b t0 t
    rw [vecActs, vecActs]
    cases a with
    | text s =>
      simp only [vecAct]
      by_cases hs : s = []
      · rw [if_pos hs, if_pos hs]; exact ih _ _ _ _
      · rw [if_neg hs, if_neg hs]
        split
        · exact ih _ _ _ _
        · exact ih _ _ _ _
        · rw [List.append_assoc]; exact ih _ _ _ _
        · rw [List.append_assoc]; exact ih _ _ _ _
    | _ => exact ih _ _ _ _

/-- Text behind one or two line breaks is laid out like text in the beginning. -/
theorem fresh_lines (cfg : Config) (l : List Str) (hl : l.flatten ≠ []) (r : List Act) (v : VecState) (two : Bool) :
    (vecActs cfg ⟨if two then .line else .push, 0, 0⟩ v (texts l ++ r)).intoVec =
      v.intoVec ++ (if two then [[]] else []) ++ (vecActs cfg .new .new (texts l ++ r)).intoVec := by
  induction l with
  | nil => exact absurd rfl hl
  | cons s l ih =>
    by_cases hs : s = []
    · subst hs
      exact ih (by simpa using hl)
    · have h2 := fun t0 => vecActs_target cfg (texts l ++ r) ⟨.none, 0, 0⟩ (marginText cfg 0 ++ s) t0 []
      simp only [List.append_nil, texts] at h2
      have hf : ∀ w : Whitespace, w ≠ .none → flushPad cfg ⟨w, 0, 0⟩ = marginText cfg 0 := by
        intro w hw
        simp [flushPad, hw]
      cases two
      · simp only [Bool.false_eq_true, texts, List.map_cons, List.cons_append, vecActs, vecAct, if_false,
          actSt, ne_eq, hs, not_false_eq_true, if_true, LSt.flushed, LSt.new, VecState.new, List.nil_append,
          hf _ (show Whitespace.push ≠ .none by simp), hf _ (show Whitespace.initial ≠ .none by simp), List.append_nil]
        rw [h2]
        rfl
      · simp only [if_true, texts, List.map_cons, List.cons_append, vecActs, vecAct, if_false,
          actSt, ne_eq, hs, not_false_eq_true, LSt.flushed, LSt.new, VecState.new, List.nil_append,
          hf _ (show Whitespace.line ≠ .none by simp), hf _ (show Whitespace.initial ≠ .none by simp)]
        rw [h2]
        simp [VecState.intoVec]

theorem fresh_text (cfg : Config) (l : List Str) (hl : l.flatten ≠ []) (r : List Act) (two : Bool) :
    evText cfg.newline (actsEv cfg ⟨if two then .line else .push, 0, 0⟩ (texts l ++ r)) =
      (if two then cfg.newline ++ cfg.newline else cfg.newline) ++ evText cfg.newline (actsEv cfg .new (texts l ++ r)) := by
  induction l with
  | nil => exact absurd rfl hl
  | cons s l ih =>
    by_cases hs : s = []
    · subst hs
      exact ih (by simpa using hl)
    · have c0 : ∀ b : Str, chunks b 0 0 = [] := fun _ => rfl
      simp only [texts, List.map_cons, List.cons_append, actsEv, actEv, actSt, if_pos hs, flushEv, LSt.flushed, LSt.new]
      cases two <;> cases cfg.indentation <;> simp [c0, evText, Whitespace.intoIndent]

/-! ## Two pieces -/

theorem opening_erase (L : Lang ι) : ∀ {a b : List (Item ι)}, a.map erase = b.map erase → opening L a = opening L b
  | [], [], _ => rfl
  | [], _ :: _, h => by simp at h
  | _ :: _, [], h => by simp at h
  | i :: a, j :: b, h => by
    simp only [List.map_cons, List.cons.injEq] at h
    have ih := opening_erase L h.2
    cases i <;> cases j <;> simp_all [erase, opening]

theorem opening_items (L : Lang ι) (l : List (Item ι)) (h : opening L l ≠ []) : opening L (fromIter l).items ≠ [] := by
  induction l with
  | nil => exact absurd rfl h
  | cons i l ih =>
    have hi : isWs i = false := by cases i <;> first | rfl | exact absurd rfl h
    have hs : (fromIter (i :: l)).items.map erase = (i :: (fromIter l).items).map erase := by
      simpa [fromIter, extend, new, items] using fromIter_split [] l i hi
    rw [opening_erase L hs]
    cases i with
    | register a b => exact ih h
    | _ => exact h

theorem safe_ws (B w : List (Item ι)) (hw : ∀ i ∈ w, isWs i = true) (hne : w ≠ []) : Safe (w ++ B) := by
  cases w with
  | nil => exact absurd rfl hne
  | cons i w =>
    have := hw i (by simp)
    refine ⟨?_, ?_⟩
    · intro r hr; simp only [List.cons_append, List.cons.injEq] at hr; rw [hr.1] at this; cases this
    · intro s r hr; simp only [List.cons_append, List.cons.injEq] at hr; rw [hr.1] at this; cases this

/-- The items of two pieces with whitespace calls between them. -/
theorem joined_items (L : Lang ι) (cs ds : List (Call ι)) (w : List WsCall) (hcl : Closed (history cs).rev)
    (hd : opening L (ds.flatMap callItems) ≠ []) :
    ∃ r : List (Item ι), GapInv w.reverse r ∧ (∀ i ∈ indPart (net w) ++ r.reverse, isWs i = true) ∧
      (history (cs ++ w.map WsCall.call ++ ds)).items.map erase =
        ((history cs).items ++ (indPart (net w) ++ r.reverse ++ (history ds).items)).map erase := by
  obtain ⟨r, r1, r2⟩ := gap_shape hcl (history cs) rfl w.reverse
  rw [List.reverse_reverse] at r2
  have hn : net w.reverse = net w := net_reverse w
  rw [hn] at r2
  refine ⟨r, r1, ?_, ?_⟩
  · intro i hi
    simp only [List.mem_append, List.mem_reverse] at hi
    rcases hi with hi | hi
    · unfold indPart at hi
      split at hi
      · simp only [List.mem_singleton] at hi; subst hi; rfl
      · cases hi
    · have := r1.soft i hi
      cases i <;> simp [isSoft] at this <;> rfl
  have hG : (history (cs ++ w.map WsCall.call)).items = (history cs).items ++ (indPart (net w) ++ r.reverse) := by
    have : (history (cs ++ w.map WsCall.call)).rev = r ++ (indPart (net w) ++ (history cs).rev) := by
      rw [← r2]; simp [history]
    have hi : (indPart (net w) : List (Item ι)).reverse = indPart (net w) := by unfold indPart; split <;> rfl
    simp [items, this, hi]
  obtain ⟨i, l, hil⟩ : ∃ i l, ds.flatMap callItems = i :: l := by
    cases h : ds.flatMap callItems with
    | nil => rw [h] at hd; exact absurd rfl hd
    | cons i l => exact ⟨i, l, rfl⟩
  have hi : isWs i = false := by
    rw [hil] at hd
    cases i <;> first | rfl | exact absurd rfl hd
  have h1 := fromIter_split ((cs ++ w.map WsCall.call).flatMap callItems) l i hi
  have h2 : (fromIter (i :: l)).items.map erase = (i :: (fromIter l).items).map erase := by
    simpa [fromIter, extend, new, items] using fromIter_split [] l i hi
  rw [← history_eq, hG, ← hil, ← List.flatMap_append, ← history_eq] at h1
  rw [h1, history_eq ds, hil]
  simp only [List.map_append, h2, List.map_cons, List.append_assoc]

theorem segment_closed {L : Lang ι} {h : Int} {cs : List (Call ι)} (hc : Segment L h cs) : Closed (history cs).rev := by
  obtain ⟨⟨r, e, hr, he⟩, -, -⟩ := hc
  obtain ⟨e', -, e2, e3⟩ := history_ended (r.map Call.append) e (ends_ws he)
  rw [history_appended hr, e3]; exact e2

/-- The requests of two pieces with whitespace between them. -/
theorem joined_acts (L : Lang ι) (cfg : Config) (cs ds : List (Call ι)) (w : List WsCall) (k : Int)
    (hc : Segment L (k - net w) cs) (hb : 0 < gapBreaks w) (hs : gapSpaces w = 0)
    (hd : opening L (ds.flatMap callItems) ≠ []) :
    ∃ p g : List Act, actsSt .new (p ++ g) = ⟨if gapBreaks w = 2 then .line else .push, 0, k⟩ ∧
      g.any visible = false ∧ resolveItems L cfg (history cs).items = (p, some ()) ∧
      resolveItems L cfg (history (cs ++ w.map WsCall.call ++ ds)).items =
        (p ++ g ++ (resolveItems L cfg (history ds).items).1, (resolveItems L cfg (history ds).items).2) := by
  obtain ⟨p, p1, p2, p3⟩ := piece_acts L cfg _ cs hc
  obtain ⟨r, r1, hGws, hit⟩ := joined_items L cs ds w (segment_closed hc) hd
  have hst := gap_state w.reverse r r1 (k - net w) (by rwa [List.reverse_reverse]) (by rwa [List.reverse_reverse])
  rw [List.reverse_reverse, net_reverse w, Int.sub_add_cancel] at hst
  obtain ⟨G, hGe⟩ : ∃ G : List (Item ι), G = indPart (net w) ++ r.reverse := ⟨_, rfl⟩
  have hGa : G.flatMap (plainActs L.langItem) =
      (if net w ≠ 0 then [Act.indent (net w)] else []) ++ (r.map softAct).reverse := by
    simp only [hGe, List.flatMap_append]
    rw [soft_acts L.langItem r.reverse (fun i hi => r1.soft i (List.mem_reverse.1 hi)), List.map_reverse]
    congr 1
    unfold indPart
    by_cases hz : net w = 0 <;> simp [hz, plainActs]
  rw [← hGe] at hGws hit
  have hGne : G ≠ [] := by
    intro h0
    rw [← hGa, h0] at hst
    simp only [List.flatMap_nil, actsSt, LSt.mk.injEq] at hst
    have := hst.1
    split at this <;> cases this
  refine ⟨p, G.flatMap (plainActs L.langItem), ?_, ?_, p2, ?_⟩
  · rw [actsSt_append, p1, hGa, hst]
  · rw [List.any_flatMap, List.any_eq_false]
    intro j hj
    have := hGws j hj
    cases j <;> simp [isWs] at this <;> simp [plainActs, visible]
  · rw [resolveItems_congr L cfg hit, p3 _ (safe_ws _ _ hGws hGne)]
    have hplain : ∀ j ∈ G, isPlain j = true := by
      intro j hj
      have := hGws j hj
      cases j <;> simp [isWs] at this <;> rfl
    have := res_behind L cfg Frame.default [] G (history ds).items hplain false
    unfold res at this
    have hbe : behind L Frame.default = plainActs L.langItem := by
      funext j
      simp [behind, Frame.default]
    rw [hbe] at this
    simp only [resolveItems, this, pre, List.append_assoc]

/-- C111. Behind a piece of code that ends with text outside of all strings, whitespace calls with a line break that
lead back to the outermost level let the code behind them, which begins with text, have the lines that it has on its
own; an empty line is between them if it is asked for. -/
theorem C111_lines (L : Lang ι) (cfg : Config) (cs ds : List (Call ι)) (w : List WsCall)
    (hc : Segment L (-net w) cs) (hb : 0 < gapBreaks w) (hs : gapSpaces w = 0)
    (hd : opening L (ds.flatMap callItems) ≠ []) :
    ∃ a, toVec L cfg (history cs).items = some a ∧
      toVec L cfg (history (cs ++ w.map WsCall.call ++ ds)).items =
        (toVec L cfg (history ds).items).map fun b => a ++ List.replicate (gapBreaks w - 1) [] ++ b := by
  obtain ⟨p, g, h1, h2, h3, h4⟩ := joined_acts L cfg cs ds w 0 (by simpa using hc) hb hs hd
  obtain ⟨l, r, k1, k2⟩ := resolve_opening L cfg (history ds).items (by rw [history_eq]; exact opening_items L _ hd)
  refine ⟨_, by rw [toVec_eq, h3]; rfl, ?_⟩
  rw [toVec_eq, toVec_eq, h4]
  cases (resolveItems L cfg (history ds).items).2 with
  | none => rfl
  | some u =>
    simp only [Option.map_some, k2]
    rw [vecActs_append cfg .new .new (p ++ g), h1, vecActs_append cfg .new .new p g, vecActs_invisible _ _ _ _ h2]
    have h2 : gapBreaks w = 2 ∨ gapBreaks w = 1 := by
      unfold gapBreaks at hb ⊢
      split
      · exact .inl rfl
      · rename_i h; rw [if_neg h] at hb
        split
        · exact .inr rfl
        · rename_i h; rw [if_neg h] at hb; cases hb
    rcases h2 with h | h
    · simpa [h] using fresh_lines cfg l k1 r (vecActs cfg .new .new p) true
    · simpa [h] using fresh_lines cfg l k1 r (vecActs cfg .new .new p) false

/-- C111. So for the text. -/
theorem C111_text (L : Lang ι) (cfg : Config) (cs ds : List (Call ι)) (w : List WsCall)
    (hc : Segment L (-net w) cs) (hb : 0 < gapBreaks w) (hs : gapSpaces w = 0)
    (hd : opening L (ds.flatMap callItems) ≠ []) :
    ∃ a, toString L cfg (history cs).items = some a ∧
      toString L cfg (history (cs ++ w.map WsCall.call ++ ds)).items =
        (toString L cfg (history ds).items).map fun b =>
          a ++ (List.replicate (gapBreaks w) cfg.newline).flatten ++ b := by
  obtain ⟨p, g, h1, h2, h3, h4⟩ := joined_acts L cfg cs ds w 0 (by simpa using hc) hb hs hd
  obtain ⟨l, r, k1, k2⟩ := resolve_opening L cfg (history ds).items (by rw [history_eq]; exact opening_items L _ hd)
  refine ⟨renderActs cfg p, by rw [toString_eq, h3, renderActs_eq]; rfl, ?_⟩
  rw [toString_eq, toString_eq, h4]
  cases (resolveItems L cfg (history ds).items).2 with
  | none => rfl
  | some u =>
    simp only [Option.map_some, k2, ← renderActs_eq]
    have hpg : renderActs cfg (p ++ g) = renderActs cfg p := by
      rw [renderActs_eq, renderActs_eq]
      simp only [render, pieces]
      rw [piecesFrom_append, piecesFrom_invisible ([] ++ p) g (by simpa [List.any_eq_false] using h2), List.append_nil]
    have hsplit : renderActs cfg (p ++ g ++ (texts l ++ r)) = renderActs cfg p ++
        evText cfg.newline (actsEv cfg ⟨if gapBreaks w = 2 then .line else .push, 0, 0⟩ (texts l ++ r)) := by
      rw [← hpg, renderActs, actsEv_append, evText_append, h1]; rfl
    rw [hsplit]
    have h2 : gapBreaks w = 2 ∨ gapBreaks w = 1 := by
      unfold gapBreaks at hb ⊢
      split
      · exact .inl rfl
      · rename_i h; rw [if_neg h] at hb
        split
        · exact .inr rfl
        · rename_i h; rw [if_neg h] at hb; cases hb
    rcases h2 with h | h
    · simpa [h, renderActs, List.replicate] using fresh_text cfg l k1 r true
    · simpa [h, renderActs, List.replicate] using fresh_text cfg l k1 r false

/-! ## At any level -/

/-- Text behind line breaks at a level of indentation. -/
theorem inside_lines (cfg : Config) (l : List Str) (hl : l.flatten ≠ []) (r : List Act) (v : VecState) (two : Bool) (k : Nat)
    (h0 : ∀ p, p <+: texts l ++ r → 0 ≤ (p.map actInd).sum) :
    (vecActs cfg ⟨if two then .line else .push, 0, k⟩ v (texts l ++ r)).intoVec =
      v.intoVec ++ (if two then [[]] else []) ++
        (vecActs cfg .new .new (texts l ++ r)).intoVec.map (movedIn cfg k) := by
  induction l with
  | nil => exact absurd rfl hl
  | cons s l ih =>
    have h1 : ∀ p, p <+: texts l ++ r → 0 ≤ (p.map actInd).sum := by
      intro p hp
      have := h0 (.text s :: p) (List.cons_prefix_cons.2 ⟨rfl, hp⟩)
      simpa [actInd] using this
    by_cases hs : s = []
    · subst hs
      exact ih (by simpa using hl) h1
    · have hf : ∀ (w : Whitespace) (j : Nat), w ≠ .none → flushPad cfg ⟨w, 0, j⟩ = marginText cfg j := by
        intro w j hw
        simp [flushPad, hw]
      have hm0 : marginText cfg 0 = [] := by unfold marginText; cases cfg.indentation <;> simp
      have hpre : Moved cfg k (v.intoVec ++ (if two then [[]] else [])) ⟨.none, 0, 0⟩ ⟨.none, 0, k⟩ ⟨s, []⟩
          ⟨marginText cfg k ++ s, v.intoVec ++ (if two then [[]] else [])⟩ :=
        ⟨rfl, rfl, by simp, by simp, hs, by simp [movedIn, hs], by simp⟩
      have := moved_acts cfg k _ (texts l ++ r) _ _ _ _ hpre (by simpa using h1)
      have e1 : vecActs cfg .new .new (texts (s :: l) ++ r) = vecActs cfg ⟨.none, 0, 0⟩ ⟨s, []⟩ (texts l ++ r) := by
        have : flushPad cfg LSt.new = [] := (hf .initial 0 (by simp)).trans hm0
        simp [texts, vecActs, vecAct, hs, actSt, LSt.flushed, VecState.new, this]
        simp [LSt.new]
      have e2 : vecActs cfg ⟨if two then .line else .push, 0, k⟩ v (texts (s :: l) ++ r) =
          vecActs cfg ⟨.none, 0, k⟩ ⟨marginText cfg k ++ s, v.intoVec ++ (if two then [[]] else [])⟩ (texts l ++ r) := by
        cases two
        · have := hf .push k (by simp)
          simp [texts, vecActs, vecAct, hs, actSt, LSt.flushed, this, VecState.intoVec]
        · have := hf .line k (by simp)
          simp [texts, vecActs, vecAct, hs, actSt, LSt.flushed, this, VecState.intoVec]
      rw [e1, e2]
      simp only [VecState.intoVec] at this ⊢
      rw [this.buf', this.target]
      simp

/-- C111. At a level of indentation the code behind has the lines that it has on its own, each of them, if it is not
empty, further in by that level; if that code, on its own, does not go further out than it begins. -/
theorem C111_inside (L : Lang ι) (cfg : Config) (cs ds : List (Call ι)) (w : List WsCall) (k : Nat)
    (hc : Segment L (k - net w) cs) (hb : 0 < gapBreaks w) (hs : gapSpaces w = 0)
    (hd : opening L (ds.flatMap callItems) ≠ [])
    (hin : ∀ A, A <+: (history ds).items → 0 ≤ height [[⟨false, false⟩]] A) :
    ∃ a, toVec L cfg (history cs).items = some a ∧
      toVec L cfg (history (cs ++ w.map WsCall.call ++ ds)).items =
        (toVec L cfg (history ds).items).map fun b =>
          a ++ List.replicate (gapBreaks w - 1) [] ++ b.map (movedIn cfg k) := by
  obtain ⟨p, g, h1, h2, h3, h4⟩ := joined_acts L cfg cs ds w k hc hb hs hd
  obtain ⟨l, r, k1, k2⟩ := resolve_opening L cfg (history ds).items (by rw [history_eq]; exact opening_items L _ hd)
  have h0 : ∀ q, q <+: texts l ++ r → 0 ≤ (q.map actInd).sum := by
    intro q hq
    rw [← k2] at hq
    obtain ⟨A, a1, a2⟩ := rise L cfg _ (history ds).items (Nat.le_refl _) [Frame.default] rfl q hq
    rw [a2]
    exact hin A a1
  refine ⟨_, by rw [toVec_eq, h3]; rfl, ?_⟩
  rw [toVec_eq, toVec_eq, h4]
  cases (resolveItems L cfg (history ds).items).2 with
  | none => rfl
  | some u =>
    simp only [Option.map_some, k2]
    rw [vecActs_append cfg .new .new (p ++ g), h1, vecActs_append cfg .new .new p g, vecActs_invisible _ _ _ _ h2]
    have h2 : gapBreaks w = 2 ∨ gapBreaks w = 1 := by
      unfold gapBreaks at hb ⊢
      split
      · exact .inl rfl
      · rename_i h; rw [if_neg h] at hb
        split
        · exact .inr rfl
        · rename_i h; rw [if_neg h] at hb; cases hb
    rcases h2 with h | h
    · simpa [h] using inside_lines cfg l k1 r (vecActs cfg .new .new p) true k h0
    · simpa [h] using inside_lines cfg l k1 r (vecActs cfg .new .new p) false k h0

/-! ## Pieces made of pieces -/

/-- Pieces of code with the same whitespace calls between each two of them. -/
def joinedBy (w : List WsCall) : List (List (Call ι)) → List (Call ι)
  | [] => []
  | [b] => b
  | b :: c :: r => b ++ w.map WsCall.call ++ joinedBy w (c :: r)

theorem joined_opening (L : Lang ι) (w : List WsCall) (b : List (Call ι)) (r : List (List (Call ι)))
    (h : opening L (b.flatMap callItems) ≠ []) : opening L ((joinedBy w (b :: r)).flatMap callItems) ≠ [] := by
  have more : ∀ (l m : List (Item ι)), opening L l ≠ [] → opening L (l ++ m) ≠ [] := by
    intro l
    induction l with
    | nil => exact fun m h => absurd rfl h
    | cons i l ih => cases i <;> first | exact fun m h => h | exact fun m h => ih m h
  cases r with
  | nil => exact h
  | cons c r =>
    rw [joinedBy, List.append_assoc, List.flatMap_append]
    exact more _ _ h

/-- A piece of code that begins with text, goes never further out than it begins, and ends at the level `h`. -/
structure Own (L : Lang ι) (h : Int) (cs : List (Call ι)) : Prop where
  segment : Segment L h cs
  begins : opening L (cs.flatMap callItems) ≠ []
  inward : ∀ A, A <+: (history cs).items → 0 ≤ height [[⟨false, false⟩]] A

theorem fold_erase (A : List (Item ι)) : ∀ s : MState, (A.map erase).foldlM markStep s = A.foldlM markStep s ∧
    height s (A.map erase) = height s A := by
  induction A with
  | nil => exact fun s => ⟨rfl, rfl⟩
  | cons i A ih =>
    intro s
    have hm : markStep s (erase i) = markStep s i := by
      cases i <;> simp [erase, markStep]
    have hi : indOf (erase i) = indOf i := by cases i <;> rfl
    rw [List.map_cons, List.foldlM_cons, List.foldlM_cons]
    simp only [height, hm, hi]
    cases markStep s i with
    | none => exact ⟨rfl, rfl⟩
    | some t =>
      refine ⟨(ih t).1, ?_⟩
      simp only [(ih t).2]

theorem height_soft (r : List (Item ι)) (h : ∀ i ∈ r, isSoft i = true) (f : List MFrame) : height [f] r = 0 := by
  induction r with
  | nil => rfl
  | cons i r ih =>
    have hi := h i (by simp)
    have := ih (fun j hj => h j (by simp [hj]))
    cases i <;> simp [isSoft] at hi <;> simp [height, markStep, indOf, this]

/-- Two pieces with whitespace calls between them are a piece. -/
theorem own_join {L : Lang ι} {a b : Int} {cs ds : List (Call ι)} (hc : Own L a cs) (hd : Own L b ds) (w : List WsCall)
    (hw : 0 ≤ a + net w) : Own L (a + net w + b) (cs ++ w.map WsCall.call ++ ds) := by
  obtain ⟨r, r1, hws, hit⟩ := joined_items L cs ds w (segment_closed hc.segment) hd.begins
  have hsoft : ∀ i ∈ r.reverse, isSoft i = true := fun i hi => r1.soft i (List.mem_reverse.1 hi)
  have hmc := hc.segment.2.1
  have hmd := hd.segment.2.1
  have hhc := hc.segment.2.2
  have hhd := hd.segment.2.2
  -- the gap
  have hgm : (indPart (net w) ++ r.reverse : List (Item ι)).foldlM markStep [[⟨false, false⟩]] = some [[⟨false, false⟩]] :=
    marks_ws _ hws _
  have hgh : ∀ G, G <+: (indPart (net w) ++ r.reverse : List (Item ι)) →
      height [[⟨false, false⟩]] G = 0 ∨ height [[⟨false, false⟩]] G = net w := by
    intro G hG
    rcases prefix_cut hG with h | ⟨q, rfl, hq⟩
    · unfold indPart at h
      split at h
      · cases G with
        | nil => exact .inl rfl
        | cons x G =>
          obtain ⟨e, h2⟩ := List.cons_prefix_cons.1 h
          have := List.prefix_nil.1 h2
          subst e this
          exact .inr (by simp [height, indOf, markStep])
      · exact .inl (by rw [List.prefix_nil.1 h]; rfl)
    · have hq0 := height_soft q (fun i hi => hsoft i (hq.subset hi)) [⟨false, false⟩]
      right
      unfold indPart
      by_cases hz : net w = 0
      · simp [hz, hq0]
      · simp [hz, height, indOf, markStep, hq0]
  have hgw : height [[⟨false, false⟩]] (indPart (net w) ++ r.reverse : List (Item ι)) = net w := by
    have hq0 := height_soft r.reverse hsoft [⟨false, false⟩]
    unfold indPart
    by_cases hz : net w = 0
    · simp [hz, hq0]
    · simp [hz, height, indOf, markStep, hq0]
  have hm2 : ((history cs).items ++ (indPart (net w) ++ r.reverse)).foldlM markStep [[⟨false, false⟩]] =
      some [[⟨false, false⟩]] := by
    rw [List.foldlM_append, show (history cs).items.foldlM markStep [[⟨false, false⟩]] = _ from hmc]
    exact hgm
  refine ⟨⟨?_, ?_, ?_⟩, ?_, ?_⟩
  · obtain ⟨⟨t, e, ht, he⟩, -, -⟩ := hd.segment
    exact ⟨(cs ++ w.map WsCall.call).flatMap callItems ++ t, e, by simp [ht], he⟩
  · rw [marks, ← (fold_erase _ _).1, hit, (fold_erase _ _).1, ← List.append_assoc, List.foldlM_append, hm2]
    exact hmd
  · rw [← (fold_erase _ _).2, hit, (fold_erase _ _).2, ← List.append_assoc, height_behind _ _ _ _ hm2,
      height_behind _ _ _ _ hmc, hhc, hgw, hhd]
  · have := joined_opening L w cs [ds] hc.begins
    simpa [joinedBy] using this
  · intro A hA
    have hA' : A.map erase <+: ((history cs).items ++ (indPart (net w) ++ r.reverse ++ (history ds).items)).map erase := by
      rw [← hit]; exact hA.map erase
    obtain ⟨t, ht⟩ := hA'
    obtain ⟨x, y, hxy, hx, hy⟩ := List.map_eq_append_iff.1 ht.symm
    rw [← (fold_erase A _).2, ← hx, (fold_erase x _).2]
    have hpx : x <+: (history cs).items ++ (indPart (net w) ++ r.reverse ++ (history ds).items) := ⟨y, hxy.symm⟩
    rcases prefix_cut hpx with h | ⟨q, rfl, hq⟩
    · exact hc.inward x h
    · rw [height_behind _ _ _ _ hmc, hhc]
      have ha : 0 ≤ a := hhc ▸ hc.inward _ (List.prefix_refl _)
      rcases prefix_cut hq with h | ⟨q', rfl, hq'⟩
      · rcases hgh q h with e | e <;> rw [e] <;> omega
      · rw [height_behind _ _ _ _ hgm, hgw]
        have := hd.inward q' hq'
        omega

/-- C111. The body of a block is laid out as on its own, one level further in than the line in front of it; what is
behind the block is laid out at the level of that line. -/
theorem C111_block (L : Lang ι) (cfg : Config) (as bs cs : List (Call ι)) (k : Nat) (ha : Own L k as) (hb : Own L 0 bs)
    (hc : Own L 0 cs) :
    ∃ a b c, toVec L cfg (history as).items = some a ∧ toVec L cfg (history bs).items = some b ∧
      toVec L cfg (history cs).items = some c ∧
      toVec L cfg (history (as ++ [.indent] ++ bs ++ [.unindent] ++ cs)).items =
        some (a ++ b.map (movedIn cfg (k + 1)) ++ c.map (movedIn cfg k)) := by
  have e1 : net [.indent] = 1 := by decide
  have e2 : net [.unindent] = -1 := by decide
  have hab := own_join ha hb [.indent] (by rw [e1]; omega)
  obtain ⟨a, a1, a2⟩ := C111_inside L cfg as bs [.indent] (k + 1)
    (by rw [e1, show ((k + 1 : Nat) : Int) - 1 = k by omega]; exact ha.segment) (by decide) (by decide) hb.begins hb.inward
  obtain ⟨ab, b1, b2⟩ := C111_inside L cfg (as ++ [WsCall.indent].map WsCall.call ++ bs) cs [.unindent] k
    (by rw [e2]; have := hab.segment; rw [e1] at this; simpa using this) (by decide) (by decide) hc.begins hc.inward
  obtain ⟨p, -, p2, -⟩ := piece_acts L cfg _ bs hb.segment
  obtain ⟨b, hb'⟩ : ∃ b, toVec L cfg (history bs).items = some b := ⟨_, by rw [toVec_eq, p2]; rfl⟩
  obtain ⟨q, -, q2, -⟩ := piece_acts L cfg _ cs hc.segment
  obtain ⟨c, hc'⟩ : ∃ c, toVec L cfg (history cs).items = some c := ⟨_, by rw [toVec_eq, q2]; rfl⟩
  refine ⟨a, b, c, a1, hb', hc', ?_⟩
  rw [a2, hb'] at b1
  have hab : ab = a ++ b.map (movedIn cfg (k + 1)) := by
    have : gapBreaks [.indent] = 1 := by decide
    simpa [this] using b1.symm
  have : gapBreaks [.unindent] = 1 := by decide
  rw [hc', hab, this] at b2
  simpa [WsCall.call] using b2

/-! ## Programs -/

/-- A program: code with the lines that it has on its own; two programs with whitespace calls between them; and a
block, which is a program in front, a program one level further in, and a program behind. -/
inductive Program (ι : Type) where
  | leaf (cs : List (Call ι)) (lines : List Str)
  | both (a : Program ι) (w : List WsCall) (b : Program ι)
  | block (a b c : Program ι)

/-- The calls of a program. -/
def Program.calls : Program ι → List (Call ι)
  | .leaf cs _ => cs
  | .both a w b => a.calls ++ w.map WsCall.call ++ b.calls
  | .block a b c => a.calls ++ [.indent] ++ b.calls ++ [.unindent] ++ c.calls

/-- The lines that a program is to have. -/
def Program.lines (cfg : Config) : Program ι → List Str
  | .leaf _ ls => ls
  | .both a w b => a.lines cfg ++ List.replicate (gapBreaks w - 1) [] ++ b.lines cfg
  | .block a b c => a.lines cfg ++ (b.lines cfg).map (movedIn cfg 1) ++ c.lines cfg

/-- The leaves have their lines, and are pieces of code that end on the level they begin on; between two programs there
is a line break, and no change of the level. -/
def Program.Ok (L : Lang ι) (cfg : Config) : Program ι → Prop
  | .leaf cs ls => Own L 0 cs ∧ toVec L cfg (history cs).items = some ls
  | .both a w b => a.Ok L cfg ∧ b.Ok L cfg ∧ net w = 0 ∧ 0 < gapBreaks w ∧ gapSpaces w = 0
  | .block a b c => a.Ok L cfg ∧ b.Ok L cfg ∧ c.Ok L cfg

theorem code_own (L : Lang ι) (cfg : Config) (p : Program ι) (hp : p.Ok L cfg) : Own L 0 p.calls := by
  induction p with
  | leaf cs ls => exact hp.1
  | both a w b iha ihb =>
    obtain ⟨ha, hb, hn, -, -⟩ := hp
    simpa [Program.calls, hn] using own_join (iha ha) (ihb hb) w (by omega)
  | block a b c iha ihb ihc =>
    obtain ⟨ha, hb, hc⟩ := hp
    have e1 : net [.indent] = 1 := by decide
    have e2 : net [.unindent] = -1 := by decide
    have h1 := own_join (iha ha) (ihb hb) [.indent] (by rw [e1]; omega)
    have h2 := own_join h1 (ihc hc) [.unindent] (by rw [e1, e2]; omega)
    rw [e1, e2] at h2
    simpa [Program.calls, WsCall.call] using h2

/-- C111. A program, however its blocks are nested, has the lines of its parts, one behind the other, those of the
blocks further in. -/
theorem C111_program (L : Lang ι) (cfg : Config) (p : Program ι) (hp : p.Ok L cfg) :
    toVec L cfg (history p.calls).items = some (p.lines cfg) := by
  induction p with
  | leaf cs ls => exact hp.2
  | both a w b iha ihb =>
    obtain ⟨ha, hb, hn, h1, h2⟩ := hp
    have hob := code_own L cfg b hb
    obtain ⟨la, e1, e2⟩ := C111_lines L cfg a.calls b.calls w
      (by rw [hn]; exact (code_own L cfg a ha).segment) h1 h2 hob.begins
    rw [iha ha] at e1
    cases e1
    rw [ihb hb] at e2
    exact e2
  | block a b c iha ihb ihc =>
    obtain ⟨ha, hb, hc⟩ := hp
    obtain ⟨la, lb, lc, e1, e2, e3, e4⟩ := C111_block L cfg a.calls b.calls c.calls 0 (code_own L cfg a ha)
      (code_own L cfg b hb) (code_own L cfg c hc)
    rw [iha ha] at e1
    rw [ihb hb] at e2
    rw [ihc hc] at e3
    cases e1
    cases e2
    cases e3
    have hm : ∀ l : Str, movedIn cfg 0 l = l := by
      intro l
      cases l <;> simp [movedIn, marginText]
      cases cfg.indentation <;> rfl
    have : (c.lines cfg).map (movedIn cfg 0) = c.lines cfg := by
      rw [List.map_congr_left (fun l _ => hm l)]; simp
    rw [this] at e4
    exact e4

/-! ## Any number of pieces -/

/-- C111. The lines of pieces of code, one behind the other, are the lines of each of them, one behind the other, with an
empty line between two of them if it is asked for. -/
theorem C111_all (L : Lang ι) (cfg : Config) (w : List WsCall) (hb : 0 < gapBreaks w) (hs : gapSpaces w = 0)
    (bs : List (List (Call ι))) (hne : bs ≠ [])
    (h : ∀ b ∈ bs, Segment L (-net w) b ∧ opening L (b.flatMap callItems) ≠ []) :
    ∃ ls : List (List Str), bs.map (fun b => toVec L cfg (history b).items) = ls.map some ∧
      toVec L cfg (history (joinedBy w bs)).items =
        some ((List.replicate (gapBreaks w - 1) []).intercalate ls) := by
  induction bs with
  | nil => exact absurd rfl hne
  | cons b bs ih =>
    cases bs with
    | nil =>
      obtain ⟨p, -, h2, -⟩ := piece_acts L cfg _ b (h b (by simp)).1
      have : ∃ a, toVec L cfg (history b).items = some a := ⟨_, by rw [toVec_eq, h2]; rfl⟩
      obtain ⟨a, ha⟩ := this
      exact ⟨[a], by simp [ha], by simp [joinedBy, ha, List.intercalate]⟩
    | cons c r =>
      obtain ⟨ls, h1, h2⟩ := ih (by simp) (fun x hx => h x (by simp [hx]))
      obtain ⟨a, ha, hj⟩ := C111_lines L cfg b (joinedBy w (c :: r)) w (h b (by simp)).1 hb hs
        (joined_opening L w c r (h c (by simp)).2)
      refine ⟨a :: ls, by rw [List.map_cons, h1, ha, List.map_cons], ?_⟩
      rw [joinedBy, hj, h2]
      cases ls with
      | nil => simp at h1
      | cons x ls => simp [List.intercalate, List.intersperse]

/-! ## Examples -/

/-- A function with a string in it, and a statement. -/
def joinedSample : List (List (Call Str)) :=
  [[.append (lit "f"), .space, .append (lit "{"), .indent, .append (.openQuote false), .append (lit "a"), .append .closeQuote,
     .unindent, .append (lit "}")],
   [.register "x".toList, .append (lit "g"), .append (.openQuote false), .append (lit "b"), .append .closeQuote]]

theorem joinedSample_ok : ∀ b ∈ joinedSample, Segment (dartLang fun s : Str => [s]) (-net [.push, .line]) b ∧
    opening (dartLang fun s : Str => [s]) (b.flatMap callItems) ≠ [] := by
  intro b hb
  simp only [joinedSample, List.mem_cons, List.not_mem_nil, or_false] at hb
  rcases hb with rfl | rfl
  · exact ⟨⟨ended [.append (lit "f"), .space, .append (lit "{"), .indent, .append (.openQuote false), .append (lit "a"),
      .append .closeQuote, .unindent] (lit "}") rfl (by show ItemStr.text _ ≠ []; decide), by decide, by decide⟩, by decide⟩
  · refine ⟨⟨ended [.register "x".toList, .append (lit "g"), .append (.openQuote false), .append (lit "b")] .closeQuote rfl (?_), by decide, by decide⟩, by decide⟩
    intro e
    cases e <;> decide

example : toVec (dartLang fun s : Str => [s]) ⟨.space 2, ['\n']⟩ (history (joinedBy [.push, .line] joinedSample)).items =
    some ["f {".toList, "  \"a\"".toList, "}".toList, [], "g\"b\"".toList] := by decide

/-- A piece at level one, and whitespace calls that lead back to the outermost level. -/
def inwardCalls : List (Call Str) := [.append (lit "a"), .indent, .append (lit "b")]

example : Segment (dartLang fun s : Str => [s]) (-net [.unindent]) inwardCalls ∧ 0 < gapBreaks [.unindent] ∧
    gapSpaces [.unindent] = 0 :=
  ⟨⟨ended [.append (lit "a"), .indent] (lit "b") rfl (by show ItemStr.text _ ≠ []; decide), by decide, by decide⟩, by decide,
    by decide⟩

example : toString (dartLang fun s : Str => [s]) ⟨.tab, "\r\n".toList⟩
      (history (inwardCalls ++ [WsCall.unindent].map WsCall.call ++ [.append (lit "c"), .indent, .append (lit "d")])).items =
    some "a\r\n\tb\r\nc\r\n\td".toList := by decide

/-- Code that goes in and out again. -/
def innerCalls : List (Call Str) :=
  [.append (lit "c"), .indent, .append (.openQuote false), .append (lit "d"), .append .closeQuote, .unindent,
    .append (lit "e"), .line, .append (lit "f")]

theorem innerCalls_in : ∀ A, A <+: (history innerCalls).items → 0 ≤ height [[⟨false, false⟩]] A := by
  intro A hA
  have : ∀ B ∈ (history innerCalls).items.inits, 0 ≤ height [[⟨false, false⟩]] B := by decide
  exact this A ((List.mem_inits _ _).2 hA)

example : Segment (dartLang fun s : Str => [s]) ((1 : Nat) - net [.push]) inwardCalls ∧
    opening (dartLang fun s : Str => [s]) (innerCalls.flatMap callItems) ≠ [] :=
  ⟨⟨ended [.append (lit "a"), .indent] (lit "b") rfl (by show ItemStr.text _ ≠ []; decide), by decide, by decide⟩, by decide⟩

example : toVec (dartLang fun s : Str => [s]) ⟨.space 2, ['\n']⟩ (history innerCalls).items =
      some ["c".toList, "  \"d\"".toList, "e".toList, [], "f".toList] ∧
    toVec (dartLang fun s : Str => [s]) ⟨.space 2, ['\n']⟩ (history (inwardCalls ++ [.push] ++ innerCalls)).items =
      some ["a".toList, "  b".toList, "  c".toList, "    \"d\"".toList, "  e".toList, [], "  f".toList] := by decide

theorem innerCalls_own : Own (dartLang fun s : Str => [s]) 0 innerCalls :=
  ⟨⟨ended [.append (lit "c"), .indent, .append (.openQuote false), .append (lit "d"), .append .closeQuote, .unindent,
    .append (lit "e"), .line] (lit "f") rfl (by show ItemStr.text _ ≠ []; decide), by decide, by decide⟩, by decide,
    innerCalls_in⟩

theorem word_own (s : Str) (h : s ≠ []) : Own (dartLang fun s : Str => [s]) 0 [.append (.literal (.static s))] := by
  refine ⟨⟨ended [] _ rfl (h), rfl, rfl⟩, ?_, ?_⟩
  · simpa [callItems, opening, ItemStr.text] using h
  · intro A hA
    have hA' : A <+: [.literal (.static s)] := hA
    cases A with
    | nil => exact Int.le_refl 0
    | cons x A =>
      obtain ⟨e, h2⟩ := List.cons_prefix_cons.1 hA'
      subst e
      rw [List.prefix_nil.1 h2]
      exact Int.le_refl 0

/-- A function in a class, with a statement in front of it. -/
def programSample : Program Str :=
  .block (.leaf [.append (lit "class {")] ["class {".toList])
    (.both (.leaf innerCalls ["c".toList, "  \"d\"".toList, "e".toList, [], "f".toList]) [.push, .line]
      (.block (.leaf [.append (lit "g {")] ["g {".toList]) (.leaf [.append (lit "x")] ["x".toList])
        (.leaf [.append (lit "}")] ["}".toList])))
    (.leaf [.append (lit "}")] ["}".toList])

example : programSample.Ok (dartLang fun s : Str => [s]) ⟨.space 2, ['\n']⟩ :=
  ⟨⟨word_own _ (by decide), by decide⟩,
    ⟨⟨innerCalls_own, by decide⟩, ⟨⟨word_own _ (by decide), by decide⟩, ⟨word_own _ (by decide), by decide⟩,
      ⟨word_own _ (by decide), by decide⟩⟩, by decide, by decide, by decide⟩,
    ⟨word_own _ (by decide), by decide⟩⟩

example : programSample.lines ⟨.space 2, ['\n']⟩ =
    ["class {".toList, "  c".toList, "    \"d\"".toList, "  e".toList, [], "  f".toList, [], "  g {".toList,
      "    x".toList, "  }".toList, "}".toList] := by decide

/-- C111. Code that goes further out than it begins: on its own there is no level further out, inside there is. -/
theorem C111_inside_needed : ∃ ds : List (Call Str), opening (dartLang fun s : Str => [s]) (ds.flatMap callItems) ≠ [] ∧
    toVec (dartLang fun s : Str => [s]) ⟨.space 2, ['\n']⟩ (history ds).items = some ["c".toList, "d".toList] ∧
    toVec (dartLang fun s : Str => [s]) ⟨.space 2, ['\n']⟩ (history (inwardCalls ++ [.push] ++ ds)).items =
      some ["a".toList, "  b".toList, "  c".toList, "d".toList] :=
  ⟨[.append (lit "c"), .unindent, .append (lit "d")], by decide, by decide, by decide⟩

/-- C111. At another level the code behind is indented: it does not have the lines that it has on its own. -/
theorem C111_level_needed : ∃ cs ds : List (Call Str), Segment (dartLang fun s : Str => [s]) 1 cs ∧
    opening (dartLang fun s : Str => [s]) (ds.flatMap callItems) ≠ [] ∧
    toVec (dartLang fun s : Str => [s]) ⟨.space 2, ['\n']⟩ (history cs).items = some ["a".toList, "  b".toList] ∧
    toVec (dartLang fun s : Str => [s]) ⟨.space 2, ['\n']⟩ (history ds).items = some ["c".toList] ∧
    toVec (dartLang fun s : Str => [s]) ⟨.space 2, ['\n']⟩ (history (cs ++ [.push] ++ ds)).items =
      some ["a".toList, "  b".toList, "  c".toList] :=
  ⟨[.append (lit "a"), .indent, .append (lit "b")], [.append (lit "c")],
    ⟨ended [.append (lit "a"), .indent] (lit "b") rfl (by show ItemStr.text _ ≠ []; decide), by decide, by decide⟩, by decide, by decide, by decide, by decide⟩

/-- C111. Code that begins with a line break: on its own the break is dropped, behind other code it is not. -/
theorem C111_begin_needed : ∃ cs ds : List (Call Str), Segment (dartLang fun s : Str => [s]) 0 cs ∧
    toVec (dartLang fun s : Str => [s]) ⟨.space 2, ['\n']⟩ (history cs).items = some ["a".toList] ∧
    toVec (dartLang fun s : Str => [s]) ⟨.space 2, ['\n']⟩ (history ds).items = some ["b".toList] ∧
    toVec (dartLang fun s : Str => [s]) ⟨.space 2, ['\n']⟩ (history (cs ++ [.push] ++ ds)).items =
      some ["a".toList, [], "b".toList] :=
  ⟨[.append (lit "a")], [.line, .append (lit "b")],
    ⟨⟨[], lit "a", rfl, by show ItemStr.text _ ≠ []; decide⟩, by decide, by decide⟩, by decide, by decide, by decide⟩

end Genco.Props
