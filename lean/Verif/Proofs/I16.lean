import Verif.Model.I16
import Verif.Proofs.Tokens
import Verif.Proofs.Lines

/-!
# Bounds on the indentation counters
-/

set_option autoImplicit false

namespace Genco

open Spec

variable {ι σ : Type}

/-- Sum of the absolute amounts of all indentation items. -/
def weight (l : List (Item ι)) : Nat := (l.map (fun i => (indOf i).natAbs)).sum

@[simp] theorem weight_nil : weight ([] : List (Item ι)) = 0 := rfl

@[simp] theorem weight_cons (i : Item ι) (l : List (Item ι)) :
    weight (i :: l) = (indOf i).natAbs + weight l := by simp [weight]

@[simp] theorem weight_append (a b : List (Item ι)) : weight (a ++ b) = weight a + weight b := by
  simp [weight]

@[simp] theorem weight_reverse (a : List (Item ι)) : weight a.reverse = weight a := by
  simp [weight]

namespace Tokens

theorem indentationRevC_eq (n : Int) (r : List (Item ι)) (h : n.natAbs + weight r ≤ 32767) :
    indentationRevC n r = some (indentationRev n r) ∧
      weight (indentationRev n r) ≤ n.natAbs + weight r := by
  induction r generalizing n with
  | nil => simp only [indentationRevC, indentationRev]; split <;> simp [indOf]
  | cons i r ih =>
    cases i with
    | push => simp [indOf] at h ⊢; exact ih n h
    | line => simp [indOf] at h ⊢; exact ih n h
    | space => simp [indOf] at h ⊢; exact ih n h
    | indentation u =>
      simp only [weight_cons, indOf] at h ⊢
      have := ih (n + u) (by omega)
      have hi : inI16 (n + u) = true := by simp [inI16]; omega
      simp only [indentationRevC, indentationRev, addI16, hi, if_true, Option.bind_some]
      exact ⟨this.1, by omega⟩
    | _ => simp only [indentationRevC, indentationRev]; split <;> simp [indOf]

theorem weight_pushRev (r : List (Item ι)) : weight (pushRev r) ≤ weight r := by
  induction r with
  | nil => simp [pushRev, indOf]
  | cons i r ih => cases i <;> simp_all [pushRev, indOf]

theorem weight_lineRev (r : List (Item ι)) : weight (lineRev r) ≤ weight r := by
  induction r with
  | nil => simp [lineRev, indOf]
  | cons i r ih => cases i <;> simp_all [lineRev, indOf]

theorem weight_spaceRev (r : List (Item ι)) : weight (spaceRev r) ≤ weight r := by
  cases r with
  | nil => simp [spaceRev, indOf]
  | cons i r => cases i <;> simp [spaceRev, indOf]

theorem itemC_eq (t : Tokens ι) (i : Item ι) (h : weight t.rev + weight [i] ≤ 32767) :
    t.itemC i = some (t.item i) ∧ weight (t.item i).rev ≤ weight t.rev + weight [i] := by
  cases i with
  | indentation n =>
    simp only [weight_cons, weight_nil, indOf] at h
    have := indentationRevC_eq n t.rev (by omega)
    simp only [itemC, indentationC, this.1, item, indentation, Option.map_some, true_and]
    simp only [weight_cons, weight_nil, indOf]
    omega
  | push => exact ⟨rfl, by simpa [item, push, indOf] using weight_pushRev _⟩
  | line => exact ⟨rfl, by simpa [item, line, indOf] using weight_lineRev _⟩
  | space => exact ⟨rfl, by simpa [item, space, indOf] using weight_spaceRev _⟩
  | _ => exact ⟨rfl, by simp [item, langItem, langItemRegister, indOf]⟩

theorem extendC_eq (t : Tokens ι) (it : List (Item ι)) (h : weight t.rev + weight it ≤ 32767) :
    t.extendC it = some (t.extend it) ∧ weight (t.extend it).rev ≤ weight t.rev + weight it := by
  induction it generalizing t with
  | nil => exact ⟨rfl, by simp [extend]⟩
  | cons i it ih =>
    simp only [weight_cons] at h
    have h1 := itemC_eq t i (by simp; omega)
    simp only [weight_cons, weight_nil] at h1
    have h2 := ih (t.item i) (by omega)
    constructor
    · simp only [extendC, List.foldlM_cons, h1.1, Option.bind_eq_bind, Option.bind_some]
      exact h2.1
    · have : t.extend (i :: it) = (t.item i).extend it := rfl
      rw [this]
      simp
      omega

end Tokens

theorem runC_eq (t : Tokens ι) (c : Call ι) (h : weight t.rev + weight (callItems c) ≤ 32767) :
    c.runC t = some (c.run t) ∧ weight (c.run t).rev ≤ weight t.rev + weight (callItems c) := by
  cases c with
  | append i => exact Tokens.itemC_eq t i h
  | indent => exact Tokens.itemC_eq t (.indentation 1) h
  | unindent => exact Tokens.itemC_eq t (.indentation (-1)) h
  | stream it => exact Tokens.extendC_eq t it h
  | appendLang i => exact ⟨rfl, by simp [Call.run, Tokens.langItem, callItems, indOf]⟩
  | register i => exact ⟨rfl, by simp [Call.run, Tokens.register, Tokens.langItemRegister, callItems, indOf]⟩
  | space => exact ⟨rfl, (Tokens.itemC_eq t .space h).2⟩
  | push => exact ⟨rfl, (Tokens.itemC_eq t .push h).2⟩
  | line => exact ⟨rfl, (Tokens.itemC_eq t .line h).2⟩

theorem historyC_eq (cs : List (Call ι)) (h : weight (cs.flatMap callItems) ≤ 32767) :
    historyC cs = some (history cs) ∧ weight (history cs).rev ≤ weight (cs.flatMap callItems) := by
  have key : ∀ (cs : List (Call ι)) (t : Tokens ι),
      weight t.rev + weight (cs.flatMap callItems) ≤ 32767 →
      cs.foldlM Call.runC t = some (cs.foldl Call.run t) ∧
        weight (cs.foldl Call.run t).rev ≤ weight t.rev + weight (cs.flatMap callItems) := by
    intro cs
    induction cs with
    | nil => intro t _; exact ⟨rfl, by simp⟩
    | cons c cs ih =>
      intro t h
      simp only [List.flatMap_cons, weight_append] at h ⊢
      have h1 := runC_eq t c (by omega)
      have h2 := ih (c.run t) (by omega)
      constructor
      · simp only [List.foldlM_cons, h1.1, Option.bind_eq_bind, Option.bind_some, List.foldl_cons]
        exact h2.1
      · simp only [List.foldl_cons]; omega
  have := key cs Tokens.new (by simpa [Tokens.new] using h)
  exact ⟨this.1, by simpa [Tokens.new, history] using this.2⟩

/-! ## Exactly when building overflows -/

/-- The indentation in the white space that ends a reversed item list. -/
def trail : List (Item ι) → Int
  | [] => 0
  | i :: r => if isWs i then indOf i + trail r else 0

namespace Tokens

theorem trail_spaceRev (r : List (Item ι)) : trail (spaceRev r) = trail r := by
  fun_cases spaceRev r <;> simp [trail, indOf]

theorem trail_pushRev (r : List (Item ι)) : trail (pushRev r) = trail r := by
  fun_induction pushRev r <;> simp_all [trail, indOf]

theorem trail_lineRev (r : List (Item ι)) : trail (lineRev r) = trail r := by
  fun_induction lineRev r <;> simp_all [trail, indOf]

theorem trail_indentationRev (n : Int) (r : List (Item ι)) :
    trail (indentationRev n r) = n + trail r := by
  have stop : ∀ r : List (Item ι), trail r = 0 →
      trail (if n ≠ 0 then .indentation n :: r else r) = n + trail r := by
    intro r hr
    by_cases hn : n = 0 <;> simp [hn, hr, trail, indOf]
  induction r generalizing n with
  | nil => exact stop [] rfl
  | cons i r ih =>
    have stop : ∀ n r, trail r = 0 →
        trail (if n ≠ 0 then .indentation n :: r else r : List (Item ι)) = n + trail r := by
      intro n r hr
      by_cases hn : n = 0 <;> simp [hn, hr, trail, indOf]
    have go : ∀ n, trail (indentationRev n r) = n + trail r := by
      intro n
      exact ih n (fun r hr => stop n r hr)
    cases i with
    | push => simpa [indentationRev, trail, indOf] using go n
    | line => simpa [indentationRev, trail, indOf] using go n
    | space => simpa [indentationRev, trail, indOf] using go n
    | indentation u =>
      have := go (n + u)
      simp only [indentationRev, this, trail, isWs_indentation, if_true, indOf]
      omega
    | _ => exact stop n _ rfl

theorem indentationRevC_exact (n : Int) (r : List (Item ι)) (hr : nfRev r) (hn : inI16 n = true) :
    indentationRevC n r = if inI16 (n + trail r) then some (indentationRev n r) else none := by
  induction r with
  | nil => simp [indentationRevC, indentationRev, trail, hn]
  | cons i r ih =>
    have go := ih hr.tail
    cases i with
    | push => simpa [indentationRevC, indentationRev, trail, indOf] using go
    | line => simpa [indentationRevC, indentationRev, trail, indOf] using go
    | space => simpa [indentationRevC, indentationRev, trail, indOf] using go
    | indentation u =>
      have hz : trail r = 0 ∧ ∀ m, indentationRevC m r = some (indentationRev m r) := by
        cases r with
        | nil => exact ⟨rfl, fun m => rfl⟩
        | cons y r =>
          have ho := hr.1
          cases y <;> first
            | exact ⟨rfl, fun m => rfl⟩
            | exact absurd ho (by decide)
            | exact absurd ho (by simp [okAfter])
      simp only [indentationRevC, indentationRev, trail, isWs_indentation, if_true, indOf, hz.1,
        Int.add_zero, addI16]
      by_cases hi : inI16 (n + u) = true
      · simp [hi, hz.2]
      · simp [hi]
    | _ => simp [indentationRevC, indentationRev, trail, hn]

theorem trail_item (t : Tokens ι) (i : Item ι) :
    trail (t.item i).rev = if isWs i then trail t.rev + indOf i else 0 := by
  cases i with
  | indentation n =>
    have := trail_indentationRev n t.rev
    simp only [item, indentation, this, isWs_indentation, if_true, indOf]
    omega
  | push => simpa [item, push, indOf] using trail_pushRev t.rev
  | line => simpa [item, line, indOf] using trail_lineRev t.rev
  | space => simpa [item, space, indOf] using trail_spaceRev t.rev
  | _ => simp [item, langItem, langItemRegister, trail]

theorem itemC_exact (t : Tokens ι) (i : Item ι) (ht : nfRev t.rev) (h0 : inI16 (trail t.rev) = true)
    (hi : inI16 (indOf i) = true) :
    t.itemC i = if inI16 (trail (t.item i).rev) then some (t.item i) else none := by
  cases i with
  | indentation n =>
    have h := indentationRevC_exact n t.rev ht hi
    rw [trail_item]
    simp only [itemC, indentationC, h, isWs_indentation, if_true, indOf, item, indentation]
    rw [Int.add_comm n]
    split <;> rfl
  | push => simp [itemC, trail_item, h0, indOf]
  | line => simp [itemC, trail_item, h0, indOf]
  | space => simp [itemC, trail_item, h0, indOf]
  | _ => simp [itemC, trail_item, inI16]

end Tokens

theorem runC_extendC (t : Tokens ι) (c : Call ι) : c.runC t = t.extendC (callItems c) := by
  cases c with
  | append i => simp [Call.runC, Tokens.extendC, callItems]
  | stream it => rfl
  | indent => simp [Call.runC, Tokens.extendC, callItems, Tokens.itemC]
  | unindent => simp [Call.runC, Tokens.extendC, callItems, Tokens.itemC]
  | _ => rfl

theorem historyC_extendC (cs : List (Call ι)) :
    historyC cs = Tokens.new.extendC (cs.flatMap callItems) := by
  have key : ∀ (cs : List (Call ι)) (t : Tokens ι),
      cs.foldlM Call.runC t = t.extendC (cs.flatMap callItems) := by
    intro cs
    induction cs with
    | nil => intro t; rfl
    | cons c cs ih =>
      intro t
      simp only [List.foldlM_cons, List.flatMap_cons, runC_extendC]
      simp only [Tokens.extendC, List.foldlM_append]
      congr 1
      funext u
      exact ih u
  exact key cs Tokens.new

/-! ## Formatter -/

theorem flush_indent {W : Writer σ} {cfg : Config} {f g : Fmt σ}
    (h : f.flushWhitespace W cfg = .ok g) : g.indent = f.indent := by
  rw [flush_eq] at h
  split at h
  · simp only [Except.ok.injEq] at h; rw [← h]; rfl
  · simp at h

theorem writeStr_indent {W : Writer σ} {cfg : Config} {f g : Fmt σ} {s : Str}
    (h : f.writeStr W cfg s = .ok g) : g.indent = f.indent := by
  unfold Fmt.writeStr at h
  split at h
  · simp only [bind] at h
    cases hf : f.flushWhitespace W cfg with
    | error e => rw [hf] at h; simp [Except.bind] at h
    | ok f' =>
      rw [hf] at h
      simp only [Except.bind, Fmt.lift] at h
      split at h
      · simp only [Except.ok.injEq] at h
        rw [← h]
        exact (flush_indent hf :)
      · simp at h
  · simp only [Except.ok.injEq] at h; rw [h]

theorem writeAll_indent {W : Writer σ} {cfg : Config} {ss : List Str} {f g : Fmt σ}
    (h : f.writeAll W cfg ss = .ok g) : g.indent = f.indent := by
  induction ss generalizing f with
  | nil => simp only [Fmt.writeAll, Except.ok.injEq] at h; rw [h]
  | cons s ss ih =>
    simp only [Fmt.writeAll, bind] at h
    cases hf : f.writeStr W cfg s with
    | error e => rw [hf] at h; simp [Except.bind] at h
    | ok f' =>
      rw [hf] at h
      rw [ih h, writeStr_indent hf]

theorem push_indent (f : Fmt σ) : f.push.indent = f.indent := by
  unfold Fmt.push; split <;> rfl

theorem pushLine_indent (f : Fmt σ) : f.pushLine.indent = f.indent := by
  unfold Fmt.pushLine; split <;> rfl

/-- The remaining cursor weighs no more. -/
theorem resolve_weight (L : Lang ι) (cfg : Config) (fuel : Nat) (e : Bool) (st : List Frame)
    (items r : List (Item ι)) (h : (resolve L cfg fuel e st items).2 = some r) :
    weight r ≤ weight items := by
  induction fuel generalizing e st items r with
  | zero => simp [resolve] at h; simp [h]
  | succ fuel ih =>
    cases items with
    | nil => simp [resolve] at h; simp [← h]
    | cons i rest =>
      cases st with
      | nil => simp [resolve] at h; simp [h]
      | cons head stack' =>
        simp only [resolve] at h
        have step : ∀ e st, (resolve L cfg fuel e st rest).2 = some r →
            weight r ≤ weight (i :: rest) := by
          intro e st h
          have := ih _ _ _ _ h
          simp; omega
        cases i with
        | openQuote e =>
          simp only at h
          split at h
          · exact step _ _ h
          · split at h
            · split at h
              · simp at h
              · rename_i rest' hr
                have h1 := ih _ _ _ _ hr
                have h2 := ih _ _ _ _ h
                simp; omega
            · simp at h
        | closeQuote =>
          simp only at h
          split at h
          · simp only [Option.some.injEq] at h; simp [← h]
          · split at h
            · exact step _ _ h
            · simp at h
        | openEval =>
          simp only at h
          split at h
          · split at h
            · have := ih _ _ _ _ h
              simp; omega
            · exact step _ _ h
          · simp at h
        | closeEval =>
          simp only at h
          split at h
          · exact step _ _ h
          · simp at h
        | indentation n =>
          simp only at h
          split at h <;> exact step _ _ h
        | _ => exact step _ _ h

theorem formatCursor_rest {L : Lang ι} {cfg : Config} {fuel : Nat} {W : Writer σ} {e : Bool}
    {st : List Frame} {items r : List (Item ι)} {f g : Fmt σ}
    (h : formatCursor L cfg fuel W e st items f = .ok (g, r)) : weight r ≤ weight items := by
  have := formatCursor_eq L cfg fuel W e st items f
  rw [h] at this
  simp only [view, runRes] at this
  split at this
  · simp at this
  · split at this
    · simp at this
    · rename_i a ha
      simp only [Except.ok.injEq, Prod.mk.injEq] at this
      rw [this.2]
      exact resolve_weight _ _ _ _ _ _ _ ha

/-- Within the bound no counter overflows. -/
theorem formatCursorC_eq (L : Lang ι) (cfg : Config) (fuel : Nat) :
    ∀ {σ : Type} (W : Writer σ) (e : Bool) (stack : List Frame) (items : List (Item ι)) (f : Fmt σ),
      f.indent.natAbs + weight items ≤ 32767 →
      formatCursorC L cfg fuel W e stack items f = some (formatCursor L cfg fuel W e stack items f) := by
  induction fuel with
  | zero => intros; rfl
  | succ fuel ih =>
    intro σ W e stack items f hw
    cases items with
    | nil => rfl
    | cons item rest =>
      cases stack with
      | nil => rfl
      | cons head stack' =>
        have hrest : f.indent.natAbs + weight rest ≤ 32767 := by simp at hw; omega
        have all : ∀ (st : List Frame) (ss : List Str) (r : List (Item ι)), weight r ≤ weight rest →
            (match f.writeAll W cfg ss with
              | .error f => some (.error f)
              | .ok f => formatCursorC L cfg fuel W e st r f) =
            some (f.writeAll W cfg ss >>= formatCursor L cfg fuel W e st r) := by
          intro st ss r hr
          cases hf : f.writeAll W cfg ss with
          | error g => rfl
          | ok g =>
            simp only
            rw [ih]
            · rfl
            · rw [writeAll_indent hf]; omega
        simp only [formatCursor, formatCursorC]
        cases item with
        | register p i => exact ih _ _ _ _ _ hrest
        | literal s =>
          simp only
          cases head.inQuote with
          | true => exact all _ _ _ (Nat.le_refl _)
          | false =>
            simp only [Bool.false_eq_true, if_false]
            cases hf : f.writeStr W cfg s.text with
            | error g => rfl
            | ok g =>
              simp only
              rw [ih]
              · rfl
              · rw [writeStr_indent hf]; omega
        | lang p i => exact all _ _ _ (Nat.le_refl _)
        | push => exact ih _ _ _ _ _ (by rw [push_indent]; exact hrest)
        | line => exact ih _ _ _ _ _ (by rw [pushLine_indent]; exact hrest)
        | space => exact ih _ _ _ _ _ hrest
        | indentation n =>
          simp only
          split
          · exact ih _ _ _ _ _ hrest
          · simp only [weight_cons, indOf] at hw
            have hi : inI16 (f.push.indent + n) = true := by
              rw [push_indent]; simp [inI16]; omega
            simp only [Fmt.indentationC, addI16, hi, if_true, Option.map_some, Option.bind_some]
            refine ih _ _ _ _ _ ?_
            simp only [push_indent]
            omega
        | closeQuote =>
          simp only
          split
          · rfl
          · split
            · exact all _ _ _ (Nat.le_refl _)
            · rfl
        | closeEval =>
          simp only
          split
          · exact all _ _ _ (Nat.le_refl _)
          · rfl
        | openEval =>
          simp only
          split
          · rcases rest with _ | ⟨i1, _ | ⟨i2, rest'⟩⟩
            · exact all _ _ _ (Nat.le_refl _)
            · cases i1 <;> exact all _ _ _ (Nat.le_refl _)
            · cases i1 with
              | literal s =>
                cases i2 with
                | closeEval => exact all _ _ _ (by simp; omega)
                | _ => exact all _ _ _ (Nat.le_refl _)
              | _ => exact all _ _ _ (Nat.le_refl _)
          · rfl
        | openQuote ev =>
          simp only
          split
          · exact all _ _ _ (Nat.le_refl _)
          · split
            · cases h1 : (Fmt.new ([] : Str)).writeAll stringWriter cfg (L.openQuote false) with
              | error g => rfl
              | ok inner =>
                simp only
                have hin : inner.indent = 0 := writeAll_indent h1
                rw [ih stringWriter true [Frame.default] rest inner (by rw [hin]; simp; omega)]
                cases h2 : formatCursor L cfg fuel stringWriter true [Frame.default] rest inner with
                | error g => rfl
                | ok p =>
                  obtain ⟨inner', rest'⟩ := p
                  simp only
                  cases h3 : inner'.writeAll stringWriter cfg (L.closeQuote false) with
                  | error g => rfl
                  | ok inner'' => exact all _ _ _ (formatCursor_rest h2)
            · rfl

theorem formatItemsC_eq (L : Lang ι) (cfg : Config) (W : Writer σ) (items : List (Item ι)) (f : Fmt σ)
    (h : f.indent.natAbs + weight items ≤ 32767) :
    formatItemsC L cfg W items f = some (formatItems L cfg W items f) := by
  unfold formatItemsC formatItems
  rw [formatCursorC_eq _ _ _ _ _ _ _ _ h]
  cases formatCursor L cfg items.length W false [Frame.default] items f with
  | ok p => rfl
  | error g => rfl

/-! ## Exactly when formatting plain items overflows -/

theorem writeStr_string (cfg : Config) (f : Fmt Str) (s : Str) :
    ∃ g, f.writeStr stringWriter cfg s = .ok g := by
  unfold Fmt.writeStr
  split
  · simp only [flush_eq, replay_string]
    exact ⟨_, rfl⟩
  · exact ⟨_, rfl⟩

theorem writeAll_string (cfg : Config) (ss : List Str) (f : Fmt Str) :
    ∃ g, f.writeAll stringWriter cfg ss = .ok g := by
  induction ss generalizing f with
  | nil => exact ⟨_, rfl⟩
  | cons s ss ih =>
    obtain ⟨g, hg⟩ := writeStr_string cfg f s
    obtain ⟨k, hk⟩ := ih g
    exact ⟨k, by simp only [Fmt.writeAll, hg, bind, Except.bind]; exact hk⟩

/-- The counter after each item. -/
def totals : Int → List (Item ι) → List Int
  | _, [] => []
  | n, i :: r => (n + indOf i) :: totals (n + indOf i) r

theorem formatCursorC_exact (L : Lang ι) (cfg : Config) (items : List (Item ι))
    (hp : ∀ i ∈ items, isPlain i = true) (f : Fmt Str) (hf : inI16 f.indent = true) :
    formatCursorC L cfg items.length stringWriter false [Frame.default] items f =
      if (totals f.indent items).all inI16 then
        some (formatCursor L cfg items.length stringWriter false [Frame.default] items f)
      else none := by
  induction items generalizing f with
  | nil => rfl
  | cons i items ih =>
    have ih := ih (fun j hj => hp j (by simp [hj]))
    have hi := hp i (by simp)
    have same : indOf i = 0 → ∀ g : Fmt Str, g.indent = f.indent →
        formatCursorC L cfg items.length stringWriter false [Frame.default] items g =
          if (totals f.indent (i :: items)).all inI16 then
            some (formatCursor L cfg items.length stringWriter false [Frame.default] items g)
          else none := by
      intro h0 g hg
      rw [ih g (by rw [hg]; exact hf)]
      simp only [totals, h0, Int.add_zero, List.all_cons, hf, Bool.true_and, hg]
    simp only [List.length_cons, formatCursorC, formatCursor]
    cases i with
    | literal s =>
      simp only [Frame.default, Bool.false_eq_true, if_false]
      obtain ⟨g, hg⟩ := writeStr_string cfg f s.text
      rw [hg]
      exact same rfl g (writeStr_indent hg)
    | lang p i =>
      obtain ⟨g, hg⟩ := writeAll_string cfg (L.langItem i) f
      simp only [hg]
      exact same rfl g (writeAll_indent hg)
    | register p i => exact same rfl f rfl
    | push => exact same rfl _ (push_indent f)
    | line => exact same rfl _ (pushLine_indent f)
    | space => exact same rfl _ rfl
    | indentation n =>
      simp only
      by_cases hn : n = 0
      · subst hn
        simpa using same rfl f rfl
      · simp only [hn, if_false, Fmt.indentationC, addI16, push_indent, totals, indOf, List.all_cons]
        by_cases hi : inI16 (f.indent + n) = true
        · simp only [hi, if_true, Option.map_some, Option.bind_some, Bool.true_and]
          have := ih { f.push with indent := f.indent + n } hi
          simp only at this
          rw [this]
          simp [Fmt.indentation, push_indent]
        · simp [hi]
    | _ => simp [isPlain] at hi

theorem formatItemsC_exact (L : Lang ι) (cfg : Config) (items : List (Item ι))
    (hp : ∀ i ∈ items, isPlain i = true) (o : Str) :
    formatItemsC L cfg stringWriter items (Fmt.new o) =
      if (totals 0 items).all inI16 then
        some (formatItems L cfg stringWriter items (Fmt.new o))
      else none := by
  unfold formatItemsC formatItems
  rw [formatCursorC_exact L cfg items hp (Fmt.new o) rfl]
  have h0 : (Fmt.new o).indent = 0 := rfl
  rw [h0]
  by_cases h : (totals 0 items).all inI16 = true
  · rw [if_pos h, if_pos h, Option.map_some]
    cases formatCursor L cfg items.length stringWriter false [Frame.default] items (Fmt.new o) with
    | ok p => rfl
    | error g => rfl
  · rw [if_neg h, if_neg h]; rfl

end Genco
