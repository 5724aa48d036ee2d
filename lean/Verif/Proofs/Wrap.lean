import Verif.Model.Wrap
import Verif.Spec.Wrap
import Verif.Proofs.I16
import Verif.Proofs.Gaps
import Verif.Proofs.Erase
import Verif.Proofs.Layout

/-!
# Counters that wrap around
-/

set_option autoImplicit false

namespace Genco

open Spec

variable {ι σ : Type}

theorem addWrap_eq (a b : Int) : addWrap a b = wrap (a + b) := rfl

theorem wrap_of_in {n : Int} (h : inI16 n = true) : wrap n = n := by
  simp only [inI16, Bool.and_eq_true, decide_eq_true_eq] at h
  unfold wrap
  omega

theorem wrap_in (n : Int) : inI16 (wrap n) = true := by
  have h : -32768 ≤ wrap n ∧ wrap n ≤ 32767 := by unfold wrap; omega
  simp [inI16, h]

theorem wrap_add (a b : Int) : wrap (a + wrap b) = wrap (a + b) := by
  unfold wrap
  omega

namespace Tokens

/-- Not white space on top. -/
theorem narrow_solid {x : Item ι} (h : isWs x = false) : narrow x = some (erase x) := by
  cases x <;> first | rfl | simp [isWs] at h

/-- What is below an indentation is not white space. -/
theorem below_indentation {u : Int} {r : List (Item ι)} (h : nfRev (.indentation u :: r)) :
    r = [] ∨ ∃ y r', r = y :: r' ∧ isWs y = false := by
  cases r with
  | nil => exact .inl rfl
  | cons y r =>
    refine .inr ⟨y, r, rfl, ?_⟩
    have ho := h.1
    cases y <;> first | rfl | exact absurd ho (by simp [okAfter])

theorem ws_erase (x : Item ι) : isWs (erase x) = isWs x := by cases x <;> rfl

theorem spaceRev_solid {y : Item ι} {r : List (Item ι)} (h : isWs y = false) : spaceRev (y :: r) = .space :: y :: r := by
  cases y <;> first | rfl | simp [isWs] at h

theorem pushRev_solid {y : Item ι} {r : List (Item ι)} (h : isWs y = false) : pushRev (y :: r) = .push :: y :: r := by
  cases y <;> first | rfl | simp [isWs] at h

theorem lineRev_solid {y : Item ι} {r : List (Item ι)} (h : isWs y = false) : lineRev (y :: r) = .line :: y :: r := by
  cases y <;> first | rfl | simp [isWs] at h

theorem indentationRevW_solid {n : Int} {y : Item ι} {r : List (Item ι)} (h : isWs y = false) :
    indentationRevW n (y :: r) = if n ≠ 0 then .indentation n :: y :: r else y :: r := by
  cases y <;> first | rfl | simp [isWs] at h

theorem indentationRev_solid {n : Int} {y : Item ι} {r : List (Item ι)} (h : isWs y = false) :
    indentationRev n (y :: r) = if n ≠ 0 then .indentation n :: y :: r else y :: r := by
  cases y <;> first | rfl | simp [isWs] at h

theorem narrow_spaceRev {r : List (Item ι)} (h : nfRev r) :
    (spaceRev r).filterMap narrow = spaceRev (r.filterMap narrow) := by
  cases r with
  | nil => rfl
  | cons x r =>
    cases x with
    | indentation u =>
      rw [show spaceRev (Item.indentation u :: r) = .space :: .indentation u :: r from rfl]
      simp only [List.filterMap_cons, narrow]
      split
      · rename_i hs
        rcases below_indentation h with rfl | ⟨y, r', rfl, hy⟩
        · rfl
        · rw [List.filterMap_cons, narrow_solid hy]
          exact (spaceRev_solid (by rw [ws_erase]; exact hy)).symm
      · rename_i v hs
        split at hs
        · simp at hs
        · simp only [Option.some.injEq] at hs
          subst hs
          rfl
    | _ => rfl

theorem narrow_pushRev {r : List (Item ι)} (h : nfRev r) :
    (pushRev r).filterMap narrow = pushRev (r.filterMap narrow) := by
  induction r with
  | nil => rfl
  | cons x r ih =>
    cases x with
    | indentation u =>
      rw [show pushRev (Item.indentation u :: r) = .push :: .indentation u :: r from rfl]
      simp only [List.filterMap_cons, narrow]
      split
      · rename_i hs
        rcases below_indentation h with rfl | ⟨y, r', rfl, hy⟩
        · rfl
        · rw [List.filterMap_cons, narrow_solid hy]
          exact (pushRev_solid (by rw [ws_erase]; exact hy)).symm
      · rename_i v hs
        split at hs
        · simp at hs
        · simp only [Option.some.injEq] at hs
          subst hs
          rfl
    | space => exact ih h.tail
    | push => exact ih h.tail
    | _ => rfl

theorem narrow_lineRev {r : List (Item ι)} (h : nfRev r) :
    (lineRev r).filterMap narrow = lineRev (r.filterMap narrow) := by
  induction r with
  | nil => rfl
  | cons x r ih =>
    cases x with
    | indentation u =>
      rw [show lineRev (Item.indentation u :: r) = .line :: .indentation u :: r from rfl]
      simp only [List.filterMap_cons, narrow]
      split
      · rename_i hs
        rcases below_indentation h with rfl | ⟨y, r', rfl, hy⟩
        · rfl
        · rw [List.filterMap_cons, narrow_solid hy]
          exact (lineRev_solid (by rw [ws_erase]; exact hy)).symm
      · rename_i v hs
        split at hs
        · simp at hs
        · simp only [Option.some.injEq] at hs
          subst hs
          rfl
    | line => exact ih h.tail
    | push => exact ih h.tail
    | _ => rfl

theorem narrow_put (m : Int) (r : List (Item ι)) :
    (if m ≠ 0 then .indentation m :: r else r : List (Item ι)).filterMap narrow =
      if wrap m ≠ 0 then .indentation (wrap m) :: r.filterMap narrow else r.filterMap narrow := by
  by_cases hm : m = 0
  · subst hm
    rfl
  · rw [if_pos hm, List.filterMap_cons]
    simp only [narrow]
    by_cases hw : wrap m = 0
    · simp [hw]
    · simp [hw]

/-- Below white space nothing is popped. -/
theorem narrow_stop (n m : Int) (hnm : wrap m = n) {r : List (Item ι)} (h : r = [] ∨ ∃ y r', r = y :: r' ∧ isWs y = false) :
    (indentationRev m r).filterMap narrow = indentationRevW n (r.filterMap narrow) := by
  rcases h with rfl | ⟨y, r', rfl, hy⟩
  · rw [show indentationRev m ([] : List (Item ι)) = if m ≠ 0 then [.indentation m] else [] from rfl, narrow_put, hnm]
    rfl
  · rw [indentationRev_solid hy, narrow_put, hnm, List.filterMap_cons, narrow_solid hy]
    exact (indentationRevW_solid (by rw [ws_erase]; exact hy)).symm

theorem narrow_indentationRev (n : Int) (hn : inI16 n = true) {r : List (Item ι)} (h : nfRev r) :
    (indentationRev n r).filterMap narrow = indentationRevW n (r.filterMap narrow) := by
  have hw := wrap_of_in hn
  induction r with
  | nil => exact narrow_stop n n hw (.inl rfl)
  | cons x r ih =>
    cases x with
    | push => exact ih h.tail
    | line => exact ih h.tail
    | space => exact ih h.tail
    | indentation u =>
      rw [show indentationRev n (Item.indentation u :: r) = indentationRev (n + u) r from rfl, List.filterMap_cons]
      have hb := below_indentation h
      simp only [narrow]
      by_cases hu : wrap u = 0
      · rw [if_pos hu]
        refine narrow_stop n (n + u) ?_ hb
        rw [← wrap_add, hu, Int.add_zero, hw]
      · rw [if_neg hu]
        rw [show indentationRevW n (Item.indentation (wrap u) :: r.filterMap narrow) =
          indentationRevW (addWrap n (wrap u)) (r.filterMap narrow) from rfl]
        exact narrow_stop _ _ (by rw [addWrap_eq, wrap_add]) hb
    | _ => exact narrow_stop n n hw (.inr ⟨_, _, rfl, rfl⟩)

theorem erase_indentationRevW (n : Int) (r : List (Item ι)) :
    (indentationRevW n r).map erase = indentationRevW n (r.map erase) := by
  induction r generalizing n with
  | nil => simp only [List.map_nil, indentationRevW]; split <;> rfl
  | cons i r ih =>
    cases i <;> simp only [List.map_cons, erase, indentationRevW] <;>
      first | exact ih _ | (split <;> rfl)

theorem narrow_item (t t' : Tokens ι) (i : Item ι) (hi : inI16 (indOf i) = true) (hn : nfRev t.rev)
    (h : t'.rev.map erase = t.rev.filterMap narrow) :
    (t'.itemW i).rev.map erase = (t.item i).rev.filterMap narrow := by
  cases i with
  | push =>
    show (pushRev t'.rev).map erase = (pushRev t.rev).filterMap narrow
    rw [erase_pushRev, h, narrow_pushRev hn]
  | line =>
    show (lineRev t'.rev).map erase = (lineRev t.rev).filterMap narrow
    rw [erase_lineRev, h, narrow_lineRev hn]
  | space =>
    show (spaceRev t'.rev).map erase = (spaceRev t.rev).filterMap narrow
    rw [erase_spaceRev, h, narrow_spaceRev hn]
  | indentation n =>
    show (indentationRevW n t'.rev).map erase = (indentationRev n t.rev).filterMap narrow
    rw [erase_indentationRevW, h, narrow_indentationRev n hi hn]
  | _ => exact congrArg (_ :: ·) h

theorem narrow_extend (l : List (Item ι)) (hl : ∀ i ∈ l, inI16 (indOf i) = true) (t t' : Tokens ι) (hn : nfRev t.rev)
    (h : t'.rev.map erase = t.rev.filterMap narrow) :
    (t'.extendW l).rev.map erase = (t.extend l).rev.filterMap narrow := by
  induction l generalizing t t' with
  | nil => exact h
  | cons i l ih =>
    exact ih (fun j hj => hl j (by simp [hj])) (t.item i) (t'.itemW i) (nfRev_item i hn)
      (narrow_item t t' i (hl i (by simp)) hn h)

theorem nfRev_indentationRevW {r : List (Item ι)} (n : Int) (h : nfRev r) :
    nfRev (indentationRevW n r) := by
  fun_induction indentationRevW n r with
  | case1 n r ih => exact ih h.tail
  | case2 n r ih => exact ih h.tail
  | case3 n r ih => exact ih h.tail
  | case4 n u r ih => exact ih h.tail
  | case5 n r h1 h2 h3 h4 hn =>
    refine nfRev_cons h (by simp [nz, hn]) ?_
    intro y r' he
    subst he
    cases y <;> first | rfl | (exact (h1 _ rfl).elim) | (exact (h2 _ rfl).elim) | (exact (h3 _ rfl).elim) | (exact (h4 _ _ rfl).elim)
  | case6 n r => exact h

theorem linked_indentationRevW {r : List (Item ι)} (n : Int) (h : LinkedRev r) :
    LinkedRev (indentationRevW n r) ∧ lastPos (indentationRevW n r) = lastPos r := by
  fun_induction indentationRevW n r with
  | case1 n r ih => exact ih h.tail
  | case2 n r ih => exact ih h.tail
  | case3 n r ih => exact ih h.tail
  | case4 n u r ih => exact ih h.tail
  | case5 n r h1 h2 h3 h4 hn => exact ⟨h, rfl⟩
  | case6 n r => exact ⟨h, rfl⟩

theorem nfRev_extendW (l : List (Item ι)) (t : Tokens ι) (h : nfRev t.rev) : nfRev (t.extendW l).rev := by
  induction l generalizing t with
  | nil => exact h
  | cons i l ih =>
    refine ih (t.itemW i) ?_
    cases i with
    | indentation n => exact nfRev_indentationRevW n h
    | _ => exact nfRev_item _ h

theorem linked_extendW (l : List (Item ι)) (t : Tokens ι) (h : Linked t) : Linked (t.extendW l) := by
  induction l generalizing t with
  | nil => exact h
  | cons i l ih =>
    refine ih (t.itemW i) ?_
    cases i with
    | indentation n => have := linked_indentationRevW n h.1; exact ⟨this.1, h.2.trans this.2.symm⟩
    | _ => exact Linked.item _ h

theorem keepRev_indentationRevW (n : Int) (r : List (Item ι)) : keepRev (indentationRevW n r) = keepRev r := by
  fun_induction indentationRevW n r with
  | case1 n r ih => simpa [keepRev] using ih
  | case2 n r ih => simpa [keepRev] using ih
  | case3 n r ih => simpa [keepRev] using ih
  | case4 n u r ih => simpa [keepRev] using ih
  | case5 n r h1 h2 h3 h4 hn => simp [keepRev]
  | case6 n r => rfl

theorem keepRev_extendW (l : List (Item ι)) (t : Tokens ι) :
    keepRev (t.extendW l).rev = (keepRev l).reverse ++ keepRev t.rev := by
  induction l generalizing t with
  | nil => rfl
  | cons i l ih =>
    rw [show t.extendW (i :: l) = (t.itemW i).extendW l from rfl, ih]
    have h1 : keepRev (t.itemW i).rev = keepRev [i] ++ keepRev t.rev := by
      cases i with
      | indentation n => exact keepRev_indentationRevW n t.rev
      | _ => exact keepRev_item t _
    have h2 : keepRev (i :: l) = keepRev [i] ++ keepRev l := by
      simp only [keepRev, ← List.map_append, ← List.filter_append]; rfl
    have h3 : (keepRev [i]).reverse = keepRev [i] := by
      simp only [keepRev, List.filter_cons, List.filter_nil]
      split <;> rfl
    rw [h1, h2, List.reverse_append, h3, List.append_assoc]

theorem runW_extendW (t : Tokens ι) (c : Call ι) : c.runW t = t.extendW (callItems c) := by
  cases c <;> rfl

theorem historyW_extendW (cs : List (Call ι)) : historyW cs = Tokens.new.extendW (cs.flatMap callItems) := by
  have key : ∀ (cs : List (Call ι)) (t : Tokens ι), cs.foldl Call.runW t = t.extendW (cs.flatMap callItems) := by
    intro cs
    induction cs with
    | nil => intro t; rfl
    | cons c cs ih =>
      intro t
      rw [List.foldl_cons, ih, runW_extendW, List.flatMap_cons]
      simp only [Tokens.extendW, List.foldl_append]
  exact key cs Tokens.new

/-- What a stream has whose counters wrap around. -/
theorem historyW_narrow (cs : List (Call ι)) (h : ∀ i ∈ cs.flatMap callItems, inI16 (indOf i) = true) :
    (historyW cs).items.map erase = (history cs).items.filterMap narrow := by
  have := narrow_extend (cs.flatMap callItems) h Tokens.new Tokens.new trivial rfl
  rw [historyW_extendW, history_eq]
  simp only [items, List.map_reverse, List.filterMap_reverse]
  exact congrArg List.reverse this

end Tokens

/-! ## Formatting -/

theorem filterMap_narrow_keep (l : List (Item ι)) :
    (l.filterMap narrow).filter (fun i => !isWs i) = (l.filter (fun i => !isWs i)).map erase := by
  induction l with
  | nil => rfl
  | cons x l ih =>
    by_cases hx : isWs x = false
    · rw [List.filterMap_cons, Tokens.narrow_solid hx]
      simp only [List.filter_cons, Tokens.ws_erase, hx, Bool.not_false, if_true, List.map_cons, ih]
    · have hx : isWs x = true := by simpa using hx
      rw [List.filter_cons, hx, Bool.not_true, if_neg (by simp), ← ih, List.filterMap_cons]
      cases x with
      | indentation n =>
        simp only [narrow]
        by_cases hn : wrap n = 0
        · rw [if_pos hn]
        · rw [if_neg hn]; rfl
      | push => rfl
      | line => rfl
      | space => rfl
      | _ => simp [isWs] at hx

theorem indSum_narrow (l : List (Item ι)) : (indSum (l.filterMap narrow) - indSum l) % 65536 = 0 := by
  induction l with
  | nil => rfl
  | cons x l ih =>
    rw [List.filterMap_cons]
    cases x with
    | indentation n =>
      simp only [narrow]
      by_cases hn : wrap n = 0
      · rw [if_pos hn]
        simp only [Tokens.indSum_cons, indOf]
        unfold wrap at hn
        omega
      · rw [if_neg hn]
        simp only [Tokens.indSum_cons, indOf]
        unfold wrap
        omega
    | _ => simpa only [narrow, erase, Tokens.indSum_cons, indOf, Int.zero_add] using ih

/-- With the checked counters not overflowing, counters that wrap around do the same. -/
theorem formatCursorW_of_C (L : Lang ι) (cfg : Config) (fuel : Nat) :
    ∀ {σ : Type} (W : Writer σ) (e : Bool) (stack : List Frame) (items : List (Item ι)) (f : Fmt σ)
      (r : Except (Fmt σ) (Fmt σ × List (Item ι))),
      formatCursorC L cfg fuel W e stack items f = some r → formatCursorW L cfg fuel W e stack items f = r := by
  induction fuel with
  | zero => intro σ W e stack items f r h; simpa [formatCursorC, formatCursorW] using h
  | succ fuel ih =>
    intro σ W e stack items f r h
    cases items with
    | nil => simpa [formatCursorC, formatCursorW] using h
    | cons item rest =>
      cases stack with
      | nil => simpa [formatCursorC, formatCursorW] using h
      | cons head stack' =>
        have all : ∀ (x : Except (Fmt σ) (Fmt σ)) (st : List Frame) (l : List (Item ι)),
            (match x with
              | .error f => some (.error f)
              | .ok f => formatCursorC L cfg fuel W e st l f) = some r →
            (x >>= formatCursorW L cfg fuel W e st l) = r := by
          intro x st l h
          cases x with
          | error g => exact Option.some.inj h
          | ok g => exact ih _ _ _ _ _ _ h
        simp only [formatCursorC] at h
        simp only [formatCursorW]
        cases item with
        | register p i => exact ih _ _ _ _ _ _ h
        | literal s =>
          by_cases hq : head.inQuote = true
          · simp only [hq, if_true] at h ⊢; exact all _ _ _ h
          · simp only [hq] at h ⊢; exact all _ _ _ h
        | lang p i => exact all _ _ _ h
        | push => exact ih _ _ _ _ _ _ h
        | line => exact ih _ _ _ _ _ _ h
        | space => exact ih _ _ _ _ _ _ h
        | indentation n =>
          simp only at h ⊢
          split at h
          · rename_i hn; rw [if_pos hn]; exact ih _ _ _ _ _ _ h
          · rename_i hn
            rw [if_neg hn]
            simp only [Fmt.indentationC, addI16] at h
            split at h
            · rename_i hi
              refine ih _ _ _ _ _ _ ?_
              simp only [Fmt.indentationW, addWrap_eq, wrap_of_in hi]
              simpa using h
            · simp at h
        | closeQuote =>
          simp only at h ⊢
          split at h
          · rename_i he; rw [if_pos he]; simpa using h
          · rename_i he
            rw [if_neg he]
            split at h
            · rename_i hq; rw [if_pos hq]; exact all _ _ _ h
            · rename_i hq; rw [if_neg hq]; simpa using h
        | closeEval =>
          simp only at h ⊢
          split at h
          · rename_i he; rw [if_pos he]; exact all _ _ _ h
          · rename_i he; rw [if_neg he]; simpa using h
        | openEval =>
          simp only at h ⊢
          split at h
          · rename_i he
            rw [if_pos he]
            split at h
            · exact all _ _ _ h
            · rename_i hne
              split
              · exact absurd rfl (hne _ _)
              · exact all _ _ _ h
          · rename_i he; rw [if_neg he]; simpa using h
        | openQuote ev =>
          simp only at h ⊢
          split at h
          · rename_i he; rw [if_pos he]; exact all _ _ _ h
          · rename_i he
            rw [if_neg he]
            split at h
            · rename_i hv
              rw [if_pos hv]
              cases h1 : (Fmt.new ([] : Str)).writeAll stringWriter cfg (L.openQuote false) with
              | error g => rw [h1] at h; simpa using h
              | ok inner =>
                rw [h1] at h
                simp only at h ⊢
                cases h2 : formatCursorC L cfg fuel stringWriter true [Frame.default] rest inner with
                | none => rw [h2] at h; simp at h
                | some x =>
                  rw [h2] at h
                  rw [ih _ _ _ _ _ _ h2]
                  cases x with
                  | error g => simpa using h
                  | ok p =>
                    obtain ⟨inner', rest'⟩ := p
                    simp only at h ⊢
                    cases h3 : inner'.writeAll stringWriter cfg (L.closeQuote false) with
                    | error g => rw [h3] at h; simpa using h
                    | ok inner'' => rw [h3] at h; exact all _ _ _ h
            · rename_i hv; rw [if_neg hv]; simpa using h

theorem formatItemsW_of_C (L : Lang ι) (cfg : Config) (W : Writer σ) (items : List (Item ι)) (f : Fmt σ)
    (r : Except (Fmt σ) (Fmt σ)) (h : formatItemsC L cfg W items f = some r) : formatItemsW L cfg W items f = r := by
  unfold formatItemsC at h
  unfold formatItemsW
  cases hc : formatCursorC L cfg items.length W false [Frame.default] items f with
  | none => rw [hc] at h; simp at h
  | some x =>
    rw [hc] at h
    rw [formatCursorW_of_C _ _ _ _ _ _ _ _ _ hc]
    exact Option.some.inj h

namespace Tokens

theorem indentationRevW_of_C (n : Int) (r r' : List (Item ι)) (h : indentationRevC n r = some r') :
    indentationRevW n r = r' := by
  induction r generalizing n with
  | nil => simpa [indentationRevC, indentationRevW] using h
  | cons i r ih =>
    cases i with
    | push => exact ih n h
    | line => exact ih n h
    | space => exact ih n h
    | indentation u =>
      simp only [indentationRevC, addI16] at h
      split at h
      · rename_i hi
        simp only [indentationRevW, addWrap_eq, wrap_of_in hi]
        exact ih _ h
      · simp at h
    | _ => simpa [indentationRevC, indentationRevW] using h

theorem itemW_of_C (t t' : Tokens ι) (i : Item ι) (h : t.itemC i = some t') : t.itemW i = t' := by
  cases i with
  | indentation n =>
    simp only [itemC, indentationC, Option.map_eq_some_iff] at h
    obtain ⟨r, hr, rfl⟩ := h
    simp only [itemW, indentationW, indentationRevW_of_C n _ _ hr]
  | _ => simpa [itemC, itemW] using h

theorem extendW_of_C (l : List (Item ι)) (t t' : Tokens ι) (h : t.extendC l = some t') : t.extendW l = t' := by
  induction l generalizing t with
  | nil => simpa [extendC, extendW] using h
  | cons i l ih =>
    simp only [extendC, List.foldlM_cons, Option.bind_eq_bind, Option.bind_eq_some_iff] at h
    obtain ⟨u, hu, h⟩ := h
    have := itemW_of_C t u i hu
    show (t.itemW i).extendW l = t'
    rw [this]
    exact ih u h

end Tokens

theorem historyW_of_C (cs : List (Call ι)) (t : Tokens ι) (h : historyC cs = some t) : historyW cs = t := by
  rw [historyC_extendC] at h
  rw [Tokens.historyW_extendW]
  exact Tokens.extendW_of_C _ _ _ h

/-- Formatting with a counter that wraps around, where the sums are in the range of the counter. -/
theorem formatCursorW_plain (L : Lang ι) (cfg : Config) (items items' : List (Item ι))
    (hp : ∀ i ∈ items, isPlain i = true) (hz : ∀ i ∈ items, Tokens.nz i = true)
    (he : items'.map erase = items.filterMap narrow) (f : Fmt Str) (hf : inI16 f.indent = true)
    (hl : (totals f.indent items).all inI16 = true) :
    (match formatCursorW L cfg items'.length stringWriter false [Frame.default] items' f with
      | .ok (f, _) => Except.ok f
      | .error f => .error f) =
    match formatCursor L cfg items.length stringWriter false [Frame.default] items f with
      | .ok (f, _) => Except.ok f
      | .error f => .error f := by
  induction items generalizing items' f with
  | nil =>
    simp only [List.filterMap_nil, List.map_eq_nil_iff] at he
    subst he
    rfl
  | cons i items ih =>
    have ih := (ih · (fun j hj => hp j (by simp [hj])) (fun j hj => hz j (by simp [hj])))
    have hi := hp i (by simp)
    have hnz := hz i (by simp)
    simp only [totals, List.all_cons, Bool.and_eq_true] at hl
    -- nothing is dropped
    obtain ⟨j, hj⟩ : ∃ j, narrow i = some j := by
      cases i with
      | indentation n =>
        simp only [narrow]
        by_cases hw : wrap n = 0
        · exfalso
          have h1 : inI16 (f.indent + n) = true := hl.1
          have h2 := wrap_of_in h1
          have h3 := wrap_of_in hf
          rw [← wrap_add, hw, Int.add_zero, h3] at h2
          simp only [Tokens.nz, ne_eq, bne_iff_ne, decide_eq_true_eq] at hnz
          omega
        · rw [if_neg hw]; exact ⟨_, rfl⟩
      | _ => exact ⟨_, rfl⟩
    rw [List.filterMap_cons, hj] at he
    cases items' with
    | nil => simp at he
    | cons j' items' =>
      simp only [List.map_cons, List.cons.injEq] at he
      obtain ⟨hj', he⟩ := he
      have same : indOf i = 0 → ∀ g : Fmt Str, g.indent = f.indent →
          (match formatCursorW L cfg items'.length stringWriter false [Frame.default] items' g with
            | .ok (f, _) => Except.ok f
            | .error f => .error f) =
          match formatCursor L cfg items.length stringWriter false [Frame.default] items g with
            | .ok (f, _) => Except.ok f
            | .error f => .error f := by
        intro h0 g hg
        have hl2 := hl.2
        rw [h0, Int.add_zero] at hl2
        exact ih items' he g (by rw [hg]; exact hf) (by rw [hg]; exact hl2)
      simp only [List.length_cons, formatCursorW, formatCursor]
      cases i with
      | literal s =>
        simp only [narrow, erase, Option.some.injEq] at hj
        subst hj
        cases j' with
        | literal s' =>
          simp only [erase, Item.literal.injEq] at hj'
          subst hj'
          simp only [Frame.default, Bool.false_eq_true, if_false]
          obtain ⟨g, hg⟩ := writeStr_string cfg f s'.text
          rw [hg]
          exact same rfl g (writeStr_indent hg)
        | _ => simp [erase] at hj'
      | lang p x =>
        simp only [narrow, erase, Option.some.injEq] at hj
        subst hj
        cases j' with
        | lang p' x' =>
          simp only [erase, Item.lang.injEq, true_and] at hj'
          subst hj'
          obtain ⟨g, hg⟩ := writeAll_string cfg (L.langItem x') f
          simp only [hg]
          exact same rfl g (writeAll_indent hg)
        | _ => simp [erase] at hj'
      | register p x =>
        simp only [narrow, erase, Option.some.injEq] at hj
        subst hj
        cases j' with
        | register p' x' => exact same rfl f rfl
        | _ => simp [erase] at hj'
      | push =>
        simp only [narrow, erase, Option.some.injEq] at hj
        subst hj
        cases j' with
        | push => exact same rfl _ (push_indent f)
        | _ => simp [erase] at hj'
      | line =>
        simp only [narrow, erase, Option.some.injEq] at hj
        subst hj
        cases j' with
        | line => exact same rfl _ (pushLine_indent f)
        | _ => simp [erase] at hj'
      | space =>
        simp only [narrow, erase, Option.some.injEq] at hj
        subst hj
        cases j' with
        | space => exact same rfl _ rfl
        | _ => simp [erase] at hj'
      | indentation n =>
        simp only [narrow] at hj
        split at hj
        · simp at hj
        · rename_i hw
          simp only [Option.some.injEq] at hj
          subst hj
          cases j' with
          | indentation n' =>
            simp only [erase, Item.indentation.injEq] at hj'
            subst hj'
            have hn0 : n ≠ 0 := by intro h0; subst h0; exact hw rfl
            simp only [hw, if_false, hn0, Fmt.indentationW, Fmt.indentation, addWrap_eq, wrap_add, push_indent]
            rw [wrap_of_in (by simpa [indOf] using hl.1)]
            exact ih items' he _ (by simpa [indOf] using hl.1) (by simpa [indOf] using hl.2)
          | _ => simp [erase] at hj'
      | _ => simp [isPlain] at hi

/-! ## Text is never lost -/

/-- The characters that are not white space. -/
def inkOf (s : Str) : Str := s.filter (fun c => !c.isWhitespace)

theorem inkOf_append (a b : Str) : inkOf (a ++ b) = inkOf a ++ inkOf b := List.filter_append ..

theorem inkOf_blank {s : Str} (h : ∀ c ∈ s, c.isWhitespace = true) : inkOf s = [] := by
  rw [inkOf, List.filter_eq_nil_iff]
  intro c hc
  simp [h c hc]

theorem blank_replicate {c : Char} (hc : c.isWhitespace = true) (n : Nat) :
    ∀ d ∈ List.replicate n c, d.isWhitespace = true := by
  intro d hd
  rw [List.eq_of_mem_replicate hd]
  exact hc

theorem inkOf_flush (cfg : Config) (h : ∀ c ∈ cfg.newline, c.isWhitespace = true) (st : LSt) :
    inkOf (evText cfg.newline (flushEv cfg st)) = [] := by
  refine inkOf_blank fun d hd => ?_
  rw [evText_flush] at hd
  have hs : Char.isWhitespace ' ' = true := by decide
  have ht : Char.isWhitespace '\t' = true := by decide
  split at hd
  · simp only [List.mem_append, List.mem_flatten, List.mem_replicate] at hd
    rcases hd with (⟨l, ⟨_, rfl⟩, hl⟩ | hd) | ⟨_, rfl⟩
    · exact h d hl
    · unfold marginText at hd
      split at hd
      · exact blank_replicate hs _ d hd
      · exact blank_replicate ht _ d hd
    · exact hs
  · exact blank_replicate hs _ d hd

theorem writeStr_ink {cfg : Config} (h : ∀ c ∈ cfg.newline, c.isWhitespace = true) {f g : Fmt Str} {s : Str}
    (hg : f.writeStr stringWriter cfg s = .ok g) : inkOf g.out = inkOf f.out ++ inkOf s := by
  have := writeStr_eq stringWriter cfg f s
  rw [hg] at this
  simp only [view, runActs, replay_string, Except.ok.injEq] at this
  subst this
  simp only [out_mk', actsEv, actEv, List.append_nil]
  by_cases hs : s = []
  · subst hs
    simp [evText, inkOf]
  · simp only [hs, ne_eq, not_false_eq_true, if_true, evText_append, inkOf_append, inkOf_flush cfg h]
    simp [evText]

theorem writeAll_ink {cfg : Config} (h : ∀ c ∈ cfg.newline, c.isWhitespace = true) {ss : List Str} {f g : Fmt Str}
    (hg : f.writeAll stringWriter cfg ss = .ok g) : inkOf g.out = inkOf f.out ++ inkOf ss.flatten := by
  induction ss generalizing f with
  | nil =>
    simp only [Fmt.writeAll, Except.ok.injEq] at hg
    simp [hg, inkOf]
  | cons s ss ih =>
    obtain ⟨k, hk⟩ := writeStr_string cfg f s
    simp only [Fmt.writeAll, hk, bind, Except.bind] at hg
    rw [ih hg, writeStr_ink h hk, List.flatten_cons, inkOf_append, List.append_assoc]

/-- The text an item that is not quoting stands for. -/
def itemText (L : Lang ι) : Item ι → Str
  | .literal s => s.text
  | .lang _ i => (L.langItem i).flatten
  | _ => []

theorem formatCursorW_ink (L : Lang ι) (cfg : Config) (h : ∀ c ∈ cfg.newline, c.isWhitespace = true)
    (items : List (Item ι)) (hp : ∀ i ∈ items, isPlain i = true) (f : Fmt Str) :
    ∃ g, formatCursorW L cfg items.length stringWriter false [Frame.default] items f = .ok (g, []) ∧
      inkOf g.out = inkOf f.out ++ inkOf (items.flatMap (itemText L)) := by
  induction items generalizing f with
  | nil => exact ⟨f, rfl, by simp [inkOf]⟩
  | cons i items ih =>
    have ih := ih (fun j hj => hp j (by simp [hj]))
    have hi := hp i (by simp)
    have same : itemText L i = [] → ∀ k : Fmt Str, k.out = f.out →
        ∃ g, formatCursorW L cfg items.length stringWriter false [Frame.default] items k = .ok (g, []) ∧
          inkOf g.out = inkOf f.out ++ inkOf ((i :: items).flatMap (itemText L)) := by
      intro h0 k hk
      obtain ⟨g, h1, h2⟩ := ih k
      exact ⟨g, h1, by rw [h2, hk, List.flatMap_cons, h0, List.nil_append]⟩
    have push_out : f.push.out = f.out := by unfold Fmt.push; split <;> rfl
    have line_out : f.pushLine.out = f.out := by unfold Fmt.pushLine; split <;> rfl
    simp only [List.length_cons, formatCursorW]
    cases i with
    | literal s =>
      simp only [Frame.default, Bool.false_eq_true, if_false]
      obtain ⟨k, hk⟩ := writeStr_string cfg f s.text
      rw [hk]
      obtain ⟨g, h1, h2⟩ := ih k
      exact ⟨g, h1, by rw [h2, writeStr_ink h hk, List.flatMap_cons, inkOf_append, List.append_assoc]; rfl⟩
    | lang p x =>
      obtain ⟨k, hk⟩ := writeAll_string cfg (L.langItem x) f
      simp only [hk]
      obtain ⟨g, h1, h2⟩ := ih k
      exact ⟨g, h1, by rw [h2, writeAll_ink h hk, List.flatMap_cons, inkOf_append, List.append_assoc]; rfl⟩
    | register p x => exact same rfl f rfl
    | push => exact same rfl _ push_out
    | line => exact same rfl _ line_out
    | space => exact same rfl _ rfl
    | indentation n =>
      simp only
      split
      · exact same rfl f rfl
      · exact same rfl _ push_out
    | _ => simp [isPlain] at hi

theorem itemText_keep (L : Lang ι) (l : List (Item ι)) :
    l.flatMap (itemText L) = ((l.filter (fun i => !isWs i)).map erase).flatMap (itemText L) := by
  induction l with
  | nil => rfl
  | cons x l ih => cases x <;> simp [isWs, erase, itemText, ih]

end Genco
