import Verif.Spec.Tiers
import Verif.Proofs.Wrap

/-!
# 16-bit counters in streams with strings
-/

set_option autoImplicit false

namespace Genco

open Spec

variable {ι : Type}

theorem tiers_keep {s s' : MState} {i : Item ι} (h : markStep s i = some s') (hl : s'.length = s.length)
    (l : Int) (ls : List Int) (r : List (Item ι)) :
    tiers (l :: ls) s (i :: r) = (l + indOf i) :: tiers ((l + indOf i) :: ls) s' r := by
  simp [tiers, h, levelStep, hl]

theorem tiers_open {s s' : MState} {i : Item ι} (h : markStep s i = some s') (hl : s.length < s'.length)
    (ls : List Int) (r : List (Item ι)) : tiers ls s (i :: r) = 0 :: tiers (0 :: ls) s' r := by
  simp [tiers, h, levelStep, hl]

theorem tiers_close {s s' : MState} {i : Item ι} (h : markStep s i = some s') (hl : s'.length < s.length)
    (l : Int) (ls : List Int) (r : List (Item ι)) :
    tiers (l :: ls) s (i :: r) = ls.headD 0 :: tiers ls s' r := by
  have : ¬ s.length < s'.length := by omega
  simp [tiers, h, levelStep, hl, this]

/-- The frames as the specification has them. -/
def framesOf (stack : List Frame) : List MFrame := stack.map (fun f => ⟨f.inQuote, f.endOnEval⟩)

/-- The outermost frame is no evaluation. -/
def bottomed : List Frame → Bool
  | [] => false
  | [b] => !b.endOnEval
  | _ :: f :: s => bottomed (f :: s)

theorem bottomed_head {a b : Frame} {s : List Frame} (h : bottomed (a :: s) = true) (e : b.endOnEval = a.endOnEval) :
    bottomed (b :: s) = true := by
  cases s with
  | nil => simpa [bottomed, e] using h
  | cons c s => exact h

theorem bottomed_tail {a : Frame} {s : List Frame} (h : bottomed (a :: s) = true) (e : a.endOnEval = true) :
    bottomed s = true := by
  cases s with
  | nil => simp [bottomed, e] at h
  | cons c s => exact h

/-- How checked and unbounded counters compare, where `t` says that all levels are within bounds. -/
def Compared (x : Option (Except (Fmt Str) (Fmt Str × List (Item ι)))) (y : Except (Fmt Str) (Fmt Str × List (Item ι)))
    (t : Bool) (ls : List Int) (outer : MState) (n : Nat) (eoc : Bool) : Prop :=
  match x with
  | none => t = false
  | some (.error e) => y = .error e ∧ t = true
  | some (.ok (g, r)) => y = .ok (g, r) ∧ r.length ≤ n ∧ (eoc = false → r = []) ∧ t = (tiers ls outer r).all inI16

theorem Compared.mono {x : Option (Except (Fmt Str) (Fmt Str × List (Item ι)))}
    {y : Except (Fmt Str) (Fmt Str × List (Item ι))} {t : Bool} {ls : List Int} {outer : MState} {n m : Nat} {eoc : Bool}
    (h : Compared x y t ls outer n eoc) (hn : n ≤ m) : Compared x y t ls outer m eoc := by
  match x, h with
  | none, h => exact h
  | some (.error e), h => exact h
  | some (.ok (g, r)), h => exact ⟨h.1, Nat.le_trans h.2.1 hn, h.2.2⟩

theorem cursorC_tiers (L : Lang ι) (cfg : Config) (fuel : Nat) :
    ∀ (eoc : Bool) (stack : List Frame) (items : List (Item ι)) (f : Fmt Str) (ls : List Int) (outer : MState),
      items.length ≤ fuel → bottomed stack = true → inI16 f.indent = true → inI16 (ls.headD 0) = true →
      (eoc = true ↔ outer ≠ []) →
      Compared (formatCursorC L cfg fuel stringWriter eoc stack items f)
        (formatCursor L cfg fuel stringWriter eoc stack items f)
        ((tiers (f.indent :: ls) (framesOf stack :: outer) items).all inI16) ls outer items.length eoc := by
  induction fuel with
  | zero =>
    intro eoc stack items f ls outer hn hs hf hl ho
    have : items = [] := List.length_eq_zero_iff.mp (Nat.le_zero.mp hn)
    subst this
    exact ⟨rfl, Nat.le_refl _, fun _ => rfl, rfl⟩
  | succ fuel ih =>
    intro eoc stack items f ls outer hn hs hf hl ho
    cases items with
    | nil => exact ⟨rfl, Nat.le_refl _, fun _ => rfl, rfl⟩
    | cons i rest =>
      cases stack with
      | nil => cases hs
      | cons head stack =>
        have hn' : rest.length ≤ fuel := by simpa using hn
        have go : ∀ (st : List Frame) (g : Fmt Str), bottomed st = true → g.indent = f.indent → indOf i = 0 →
            markStep (framesOf (head :: stack) :: outer) i = some (framesOf st :: outer) →
            Compared (formatCursorC L cfg fuel stringWriter eoc st rest g)
              (formatCursor L cfg fuel stringWriter eoc st rest g)
              ((tiers (f.indent :: ls) (framesOf (head :: stack) :: outer) (i :: rest)).all inI16) ls outer
              (i :: rest).length eoc := by
          intro st g hst hg hi hm
          rw [tiers_keep hm rfl, hi, Int.add_zero, List.all_cons, hf, Bool.true_and, ← hg]
          exact (ih eoc st rest g ls outer hn' hst (by rw [hg]; exact hf) hl ho).mono (by simp)
        have bad : markStep (framesOf (head :: stack) :: outer) i = none → ∀ g : Fmt Str,
            Compared (ι := ι) (some (.error g)) (.error g)
              ((tiers (f.indent :: ls) (framesOf (head :: stack) :: outer) (i :: rest)).all inI16) ls outer
              (i :: rest).length eoc := by
          intro hm g
          exact ⟨rfl, by simp [tiers, hm]⟩
        simp only [formatCursorC, formatCursor]
        cases i with
        | register p x => exact go _ _ (bottomed_head hs rfl) rfl rfl rfl
        | literal s =>
          by_cases hq : head.inQuote = true
          · obtain ⟨g, hg⟩ := writeAll_string cfg (L.writeQuoted s.text) f
            simp only [hq, if_true, hg]
            exact go _ _ (bottomed_head hs rfl) (writeAll_indent hg) rfl rfl
          · obtain ⟨g, hg⟩ := writeStr_string cfg f s.text
            simp only [hq, hg]
            exact go _ _ (bottomed_head hs rfl) (writeStr_indent hg) rfl rfl
        | lang p x =>
          obtain ⟨g, hg⟩ := writeAll_string cfg (L.langItem x) f
          simp only [hg]
          exact go _ _ (bottomed_head hs rfl) (writeAll_indent hg) rfl rfl
        | push => exact go _ _ (bottomed_head hs rfl) (push_indent f) rfl rfl
        | line => exact go _ _ (bottomed_head hs rfl) (pushLine_indent f) rfl rfl
        | space => exact go _ _ (bottomed_head hs rfl) rfl rfl rfl
        | indentation n =>
          simp only
          by_cases h0 : n = 0
          · subst h0
            simp only [if_true]
            exact go _ _ (bottomed_head hs rfl) rfl rfl rfl
          · rw [if_neg h0, if_neg h0]
            have hm : markStep (framesOf (head :: stack) :: outer) (.indentation n : Item ι) =
                some (framesOf (head :: stack) :: outer) := rfl
            rw [tiers_keep hm rfl]
            by_cases hi : inI16 (f.indent + n) = true
            · simp only [Fmt.indentationC, addI16, push_indent, hi, if_true, Option.map_some, Option.bind_some,
                Fmt.indentation, indOf, List.all_cons, Bool.true_and]
              exact (ih eoc _ rest _ ls outer hn' (bottomed_head hs rfl) hi hl ho).mono (by simp)
            · simp only [Fmt.indentationC, addI16, push_indent, hi]
              show _ = false
              simp [indOf, hi]
        | closeQuote =>
          simp only
          by_cases he : eoc = true
          · rw [if_pos he, if_pos he]
            refine ⟨rfl, by simp, by simp [he], ?_⟩
            obtain ⟨o, os, rfl⟩ : ∃ o os, outer = o :: os := by
              cases outer with
              | nil => exact absurd rfl (ho.1 he)
              | cons o os => exact ⟨o, os, rfl⟩
            rw [tiers_close (s' := o :: os) rfl (by simp), List.all_cons, hl, Bool.true_and]
          · rw [if_neg he, if_neg he]
            have ho' : outer = [] := by
              cases outer with
              | nil => rfl
              | cons o os => exact absurd (ho.2 (by simp)) he
            subst ho'
            by_cases hq : head.inQuote = true
            · rw [if_pos hq, if_pos hq]
              obtain ⟨g, hg⟩ := writeAll_string cfg (L.closeQuote head.hasEval) f
              simp only [hg]
              exact go _ _ (bottomed_head hs rfl) (writeAll_indent hg) rfl (by simp [markStep, framesOf, hq])
            · rw [if_neg hq, if_neg hq]
              exact bad (by simp [markStep, framesOf, hq]) _
        | closeEval =>
          simp only
          by_cases he : head.endOnEval = true
          · rw [if_pos he, if_pos he]
            obtain ⟨g, hg⟩ := writeAll_string cfg L.endEval f
            simp only [hg]
            exact go _ _ (bottomed_tail hs he) (writeAll_indent hg) rfl (by simp [markStep, framesOf, he])
          · rw [if_neg he, if_neg he]
            exact bad (by simp [markStep, framesOf, he]) _
        | openEval =>
          simp only
          by_cases hq : head.inQuote = true
          · rw [if_pos hq, if_pos hq]
            have hm : markStep (framesOf (head :: stack) :: outer) (.openEval : Item ι) =
                some (framesOf (⟨false, false, true⟩ :: head :: stack) :: outer) := by
              simp [markStep, framesOf, hq]
            split
            · rename_i s rest'
              obtain ⟨g, hg⟩ := writeAll_string cfg (L.evalLiteral s.text) f
              simp only [hg]
              have h2 : markStep (framesOf (⟨false, false, true⟩ :: head :: stack) :: outer) (.literal s : Item ι) =
                some (framesOf (⟨false, false, true⟩ :: head :: stack) :: outer) := rfl
              have h3 : markStep (framesOf (⟨false, false, true⟩ :: head :: stack) :: outer) (.closeEval : Item ι) =
                some (framesOf (head :: stack) :: outer) := rfl
              rw [tiers_keep hm rfl, tiers_keep h2 rfl, tiers_keep h3 rfl]
              simp only [indOf, Int.add_zero, List.all_cons, hf, Bool.true_and]
              have hgi := writeAll_indent hg
              rw [← hgi]
              have hr : rest'.length ≤ fuel := by simp at hn'; omega
              exact (ih eoc _ rest' g ls outer hr (bottomed_head hs rfl) (by rw [hgi]; exact hf) hl ho).mono (by simp; omega)
            · obtain ⟨g, hg⟩ := writeAll_string cfg L.startEval f
              simp only [hg]
              exact go _ _ hs (writeAll_indent hg) rfl hm
          · rw [if_neg hq, if_neg hq]
            exact bad (by simp [markStep, framesOf, hq]) _
        | openQuote e =>
          simp only
          by_cases hq : head.inQuote = true
          · simp only [hq, Bool.not_true, Bool.false_eq_true, if_false]
            cases e with
            | true => exact bad (by simp [markStep, framesOf, hq]) _
            | false =>
              simp only [Bool.not_false, if_true]
              have hm : markStep (framesOf (head :: stack) :: outer) (.openQuote false : Item ι) =
                  some (framesOf [Frame.default] :: framesOf (head :: stack) :: outer) := by
                simp [markStep, framesOf, hq, Frame.default]
              obtain ⟨inner, hi⟩ := writeAll_string cfg (L.openQuote false) (Fmt.new [])
              rw [tiers_open hm (by simp), List.all_cons]
              have h0 : inner.indent = 0 := writeAll_indent hi
              have := ih true [Frame.default] rest inner (f.indent :: ls) (framesOf (head :: stack) :: outer) hn'
                rfl (by rw [h0]; rfl) hf (by simp)
              rw [h0] at this
              simp only [hi]
              revert this
              cases hC : formatCursorC L cfg fuel stringWriter true [Frame.default] rest inner with
              | none => intro this; exact Bool.and_eq_false_imp.mpr (fun _ => this)
              | some x =>
                cases x with
                | error g =>
                  intro this
                  simp only [this.1]
                  exact ⟨rfl, by rw [this.2]; rfl⟩
                | ok p =>
                  obtain ⟨g, r⟩ := p
                  intro this
                  obtain ⟨e1, e2, -, e4⟩ := this
                  obtain ⟨g', hg'⟩ := writeAll_string cfg (L.closeQuote false) g
                  obtain ⟨f', hf'⟩ := writeAll_string cfg (L.writeQuoted g'.out) f
                  simp only [e1, hg', hf', e4]
                  have hfi := writeAll_indent hf'
                  rw [← hfi]
                  exact (ih eoc _ r f' ls outer (by omega) hs (by rw [hfi]; exact hf) hl ho).mono (by simp; omega)
          · simp only [hq, Bool.not_false, if_true]
            obtain ⟨g, hg⟩ := writeAll_string cfg (L.openQuote e) f
            simp only [hg]
            exact go _ _ (bottomed_head hs rfl) (writeAll_indent hg) rfl (by simp [markStep, framesOf, hq])

theorem streamLevels_C (L : Lang ι) (cfg : Config) (items : List (Item ι)) (o : Str) :
    formatItemsC L cfg stringWriter items (Fmt.new o) =
      if (streamLevels items).all inI16 then some (formatItems L cfg stringWriter items (Fmt.new o)) else none := by
  have h := cursorC_tiers L cfg items.length false [Frame.default] items (Fmt.new o) [] [] (Nat.le_refl _) rfl rfl rfl
    (by simp)
  have ht : (tiers ((Fmt.new o).indent :: []) [framesOf [Frame.default]] items) = streamLevels items := rfl
  rw [ht] at h
  unfold formatItemsC formatItems
  revert h
  cases formatCursorC L cfg items.length stringWriter false [Frame.default] items (Fmt.new o) with
  | none => intro h; rw [if_neg (by rw [show _ = false from h]; simp)]; rfl
  | some x =>
    cases x with
    | error g => intro h; rw [if_pos h.2, h.1]; rfl
    | ok q =>
      obtain ⟨g, r⟩ := q
      intro h
      obtain ⟨h1, -, h3, h4⟩ := h
      rw [h3 rfl] at h1 h4
      rw [if_pos (by rw [h4]; rfl), h1]
      rfl

/-! ## Counters that wrap around -/

/-- How checked counters compare with counters that wrap around, on an equivalent stream. -/
def Narrowed (x : Option (Except (Fmt Str) (Fmt Str × List (Item ι)))) (y : Except (Fmt Str) (Fmt Str × List (Item ι)))
    (n n' : Nat) : Prop :=
  match x with
  | none => True
  | some (.error e) => y = .error e
  | some (.ok (g, r)) =>
    ∃ r', y = .ok (g, r') ∧ r'.map erase = r.filterMap narrow ∧ r.length ≤ n ∧ r'.length ≤ n' ∧
      ∀ i ∈ r, Tokens.nz i = true

theorem Narrowed.mono {x : Option (Except (Fmt Str) (Fmt Str × List (Item ι)))}
    {y : Except (Fmt Str) (Fmt Str × List (Item ι))} {n n' m m' : Nat}
    (h : Narrowed x y n n') (hn : n ≤ m) (hn' : n' ≤ m') : Narrowed x y m m' := by
  match x, h with
  | none, _ => trivial
  | some (.error e), h => exact h
  | some (.ok (g, r)), h =>
    obtain ⟨r', h1, h2, h3, h4, h5⟩ := h
    exact ⟨r', h1, h2, Nat.le_trans h3 hn, Nat.le_trans h4 hn', h5⟩

theorem dropped_out {n k : Int} (hk : inI16 k = true) (hn : n ≠ 0) (hw : wrap n = 0) : inI16 (k + n) = false := by
  cases h1 : inI16 (k + n) with
  | false => rfl
  | true =>
    have h2 := wrap_of_in h1
    rw [← wrap_add, hw, Int.add_zero, wrap_of_in hk] at h2
    omega

theorem dropped_none (L : Lang ι) (cfg : Config) (fuel : Nat) (e : Bool) (head : Frame) (stack : List Frame)
    (n : Int) (r : List (Item ι)) (f : Fmt Str) (hf : inI16 f.indent = true) (hn : n ≠ 0) (hw : wrap n = 0) :
    formatCursorC L cfg (fuel + 1) stringWriter e (head :: stack) (.indentation n :: r) f = none := by
  simp [formatCursorC, hn, Fmt.indentationC, addI16, push_indent, dropped_out hf hn hw]

theorem narrow_cases {i : Item ι} (hz : Tokens.nz i = true) :
    (∃ n, i = .indentation n ∧ n ≠ 0 ∧ wrap n = 0 ∧ narrow i = none) ∨ ∃ j, narrow i = some j := by
  cases i with
  | indentation n =>
    simp only [Tokens.nz, ne_eq, decide_eq_true_eq] at hz
    by_cases hw : wrap n = 0
    · exact .inl ⟨n, rfl, hz, hw, by simp [narrow, hw]⟩
    · exact .inr ⟨.indentation (wrap n), by simp [narrow, hw]⟩
  | _ => exact .inr ⟨_, rfl⟩

theorem cursorW_narrow (L : Lang ι) (cfg : Config) (fuel : Nat) :
    ∀ (fuel' : Nat) (eoc : Bool) (stack : List Frame) (items items' : List (Item ι)) (f : Fmt Str),
      items.length ≤ fuel → items'.length ≤ fuel' → (∀ i ∈ items, Tokens.nz i = true) →
      items'.map erase = items.filterMap narrow → inI16 f.indent = true → bottomed stack = true →
      Narrowed (formatCursorC L cfg fuel stringWriter eoc stack items f)
        (formatCursorW L cfg fuel' stringWriter eoc stack items' f) items.length items'.length := by
  induction fuel with
  | zero =>
    intro fuel' eoc stack items items' f hn hn' hz he hf hs
    have : items = [] := List.length_eq_zero_iff.mp (Nat.le_zero.mp hn)
    subst this
    simp only [List.filterMap_nil, List.map_eq_nil_iff] at he
    subst he
    cases fuel' <;> exact ⟨[], rfl, rfl, Nat.le_refl _, Nat.le_refl _, by simp⟩
  | succ fuel ih =>
    intro fuel' eoc stack items items' f hn hn' hz he hf hs
    cases items with
    | nil =>
      simp only [List.filterMap_nil, List.map_eq_nil_iff] at he
      subst he
      cases fuel' <;> exact ⟨[], rfl, rfl, Nat.le_refl _, Nat.le_refl _, by simp⟩
    | cons i rest =>
      cases stack with
      | nil => cases hs
      | cons head stack =>
        have hr : rest.length ≤ fuel := by simpa using hn
        have hzr : ∀ j ∈ rest, Tokens.nz j = true := fun j hj => hz j (by simp [hj])
        rcases narrow_cases (hz i (by simp)) with ⟨n, rfl, hn0, hw, -⟩ | ⟨j, hj⟩
        · rw [dropped_none L cfg fuel eoc head stack n rest f hf hn0 hw]
          trivial
        rw [List.filterMap_cons, hj] at he
        cases items' with
        | nil => simp at he
        | cons j' rest' =>
        simp only [List.map_cons, List.cons.injEq] at he
        obtain ⟨hj', he⟩ := he
        obtain ⟨fuel', rfl⟩ : ∃ k, fuel' = k + 1 := ⟨fuel' - 1, by simp at hn'; omega⟩
        have hr' : rest'.length ≤ fuel' := by simpa using hn'
        have go : ∀ (st : List Frame) (g : Fmt Str), inI16 g.indent = true → bottomed st = true →
            Narrowed (formatCursorC L cfg fuel stringWriter eoc st rest g)
              (formatCursorW L cfg fuel' stringWriter eoc st rest' g) (i :: rest).length (j' :: rest').length :=
          fun st g hg hb => (ih fuel' eoc st rest rest' g hr hr' hzr he hg hb).mono (by simp) (by simp)
        have keep : ∀ {g : Fmt Str}, g.indent = f.indent → inI16 g.indent = true := fun h => by rw [h]; exact hf
        simp only [formatCursorC, formatCursorW]
        cases i with
        | register p x =>
          simp only [narrow, erase, Option.some.injEq] at hj
          subst hj
          cases j' with
          | register p' x' => exact go _ _ hf (bottomed_head hs rfl)
          | _ => simp [erase] at hj'
        | literal s =>
          simp only [narrow, erase, Option.some.injEq] at hj
          subst hj
          cases j' with
          | literal s' =>
            simp only [erase, Item.literal.injEq] at hj'
            subst hj'
            by_cases hq : head.inQuote = true
            · obtain ⟨g, hg⟩ := writeAll_string cfg (L.writeQuoted s'.text) f
              simp only [hq, if_true, hg]
              exact go _ _ (keep (writeAll_indent hg)) (bottomed_head hs rfl)
            · obtain ⟨g, hg⟩ := writeStr_string cfg f s'.text
              simp only [hq, hg]
              exact go _ _ (keep (writeStr_indent hg)) (bottomed_head hs rfl)
          | _ => simp [erase] at hj'
        | lang p x =>
          simp only [narrow, erase, Option.some.injEq] at hj
          subst hj
          cases j' with
          | lang p' x' =>
            simp only [erase, Item.lang.injEq, true_and] at hj'
            subst hj'
            obtain ⟨g, hg⟩ := writeAll_string cfg (L.langItem x') f
            simp only [hg]
            exact go _ _ (keep (writeAll_indent hg)) (bottomed_head hs rfl)
          | _ => simp [erase] at hj'
        | push =>
          simp only [narrow, erase, Option.some.injEq] at hj
          subst hj
          cases j' with
          | push => exact go _ _ (keep (push_indent f)) (bottomed_head hs rfl)
          | _ => simp [erase] at hj'
        | line =>
          simp only [narrow, erase, Option.some.injEq] at hj
          subst hj
          cases j' with
          | line => exact go _ _ (keep (pushLine_indent f)) (bottomed_head hs rfl)
          | _ => simp [erase] at hj'
        | space =>
          simp only [narrow, erase, Option.some.injEq] at hj
          subst hj
          cases j' with
          | space => exact go _ _ (keep rfl) (bottomed_head hs rfl)
          | _ => simp [erase] at hj'
        | indentation n =>
          simp only [narrow] at hj
          split at hj
          · simp at hj
          · rename_i hw
            simp only [Option.some.injEq] at hj
            subst hj
            cases j' with
            | indentation n' =>
              simp only [erase, Item.indentation.injEq] at hj'
              subst hj'
              have hn0 : n ≠ 0 := by intro h0; subst h0; exact hw rfl
              simp only [hw, if_false, hn0, Fmt.indentationW, Fmt.indentationC, addWrap_eq, wrap_add, push_indent, addI16]
              by_cases hi : inI16 (f.indent + n) = true
              · rw [wrap_of_in hi]
                simp only [hi, if_true, Option.map_some, Option.bind_some]
                exact go _ _ hi (bottomed_head hs rfl)
              · simp only [hi]
                trivial
            | _ => simp [erase] at hj'
        | closeQuote =>
          simp only [narrow, erase, Option.some.injEq] at hj
          subst hj
          cases j' with
          | closeQuote =>
            simp only
            by_cases hc : eoc = true
            · rw [if_pos hc, if_pos hc]
              exact ⟨rest', rfl, he, by simp, by simp, hzr⟩
            · rw [if_neg hc, if_neg hc]
              by_cases hq : head.inQuote = true
              · rw [if_pos hq, if_pos hq]
                obtain ⟨g, hg⟩ := writeAll_string cfg (L.closeQuote head.hasEval) f
                simp only [hg]
                exact go _ _ (keep (writeAll_indent hg)) (bottomed_head hs rfl)
              · rw [if_neg hq, if_neg hq]; rfl
          | _ => simp [erase] at hj'
        | closeEval =>
          simp only [narrow, erase, Option.some.injEq] at hj
          subst hj
          cases j' with
          | closeEval =>
            simp only
            by_cases hq : head.endOnEval = true
            · rw [if_pos hq, if_pos hq]
              obtain ⟨g, hg⟩ := writeAll_string cfg L.endEval f
              simp only [hg]
              exact go _ _ (keep (writeAll_indent hg)) (bottomed_tail hs hq)
            · rw [if_neg hq, if_neg hq]; rfl
          | _ => simp [erase] at hj'
        | openEval =>
          simp only [narrow, erase, Option.some.injEq] at hj
          subst hj
          cases j' with
          | openEval =>
            simp only
            by_cases hq : head.inQuote = true
            · rw [if_pos hq, if_pos hq]
              obtain ⟨g, hg⟩ := writeAll_string cfg L.startEval f
              have gen := go (⟨false, false, true⟩ :: head :: stack) g (keep (writeAll_indent hg)) hs
              -- where a dropped item would make a short evaluation, the checked counter overflows
              have short : ∀ (s : ItemStr) (t' : List (Item ι)), rest' = .literal s :: .closeEval :: t' →
                  (∃ t, rest = .literal s :: .closeEval :: t ∧ t'.map erase = t.filterMap narrow) ∨
                    formatCursorC L cfg fuel stringWriter eoc (⟨false, false, true⟩ :: head :: stack) rest g = none := by
                intro s t' h
                subst h
                cases rest with
                | nil => simp at he
                | cons a rest =>
                  obtain ⟨k, rfl⟩ : ∃ k, fuel = k + 1 := ⟨fuel - 1, by simp at hr; omega⟩
                  rcases narrow_cases (hzr a (by simp)) with ⟨n, rfl, hn0, hw, -⟩ | ⟨b, hb⟩
                  · exact .inr (dropped_none L cfg k eoc _ _ n rest g (keep (writeAll_indent hg)) hn0 hw)
                  · rw [List.filterMap_cons, hb] at he
                    simp only [List.map_cons, List.cons.injEq, erase] at he
                    obtain ⟨h1, h2⟩ := he
                    subst h1
                    obtain rfl : a = .literal s := by
                      cases a with
                      | literal u => simpa [narrow, erase] using hb
                      | indentation n => simp only [narrow] at hb; split at hb <;> simp at hb
                      | _ => simp [narrow, erase] at hb
                    cases rest with
                    | nil => simp at h2
                    | cons c rest =>
                      rcases narrow_cases (hzr c (by simp)) with ⟨n, rfl, hn0, hw, -⟩ | ⟨d, hd⟩
                      · refine .inr ?_
                        obtain ⟨m, rfl⟩ : ∃ m, k = m + 1 := ⟨k - 1, by simp at hr; omega⟩
                        obtain ⟨g', hg'⟩ := writeStr_string cfg g s.text
                        rw [formatCursorC]
                        simp only [hg', Bool.false_eq_true, if_false]
                        exact dropped_none L cfg m eoc _ _ n rest g' (by
                          rw [writeStr_indent hg']; exact keep (writeAll_indent hg)) hn0 hw
                      · rw [List.filterMap_cons, hd] at h2
                        simp only [List.cons.injEq] at h2
                        obtain ⟨h3, h4⟩ := h2
                        subst h3
                        obtain rfl : c = .closeEval := by
                          cases c with
                          | closeEval => rfl
                          | indentation n => simp only [narrow] at hd; split at hd <;> simp at hd
                          | _ => simp [narrow, erase] at hd
                        exact .inl ⟨rest, rfl, h4⟩
              split
              · rename_i s t
                simp only [List.filterMap_cons, narrow, erase] at he
                cases rest' with
                | nil => simp at he
                | cons a rest' =>
                  cases rest' with
                  | nil => simp at he
                  | cons c rest' =>
                    simp only [List.map_cons, List.cons.injEq] at he
                    obtain ⟨ha, hc, he⟩ := he
                    cases a with
                    | literal s' =>
                      simp only [erase, Item.literal.injEq] at ha
                      subst ha
                      cases c with
                      | closeEval =>
                        obtain ⟨g', hg'⟩ := writeAll_string cfg (L.evalLiteral s'.text) f
                        simp only [hg']
                        refine (ih fuel' eoc _ t rest' g' (by simp at hr; omega) (by simp at hr'; omega)
                          (fun j hj => hzr j (by simp [hj])) he (keep (writeAll_indent hg')) hs).mono
                          (by simp; omega) (by simp; omega)
                      | _ => simp [erase] at hc
                    | _ => simp [erase] at ha
              · rename_i hne
                simp only [hg]
                split
                · rename_i s t'
                  rcases short s t' rfl with ⟨t, ht, -⟩ | hnone
                  · exact absurd ht (hne s t)
                  · rw [hnone]; trivial
                · exact gen
            · rw [if_neg hq, if_neg hq]; rfl
          | _ => simp [erase] at hj'
        | openQuote ev =>
          simp only [narrow, erase, Option.some.injEq] at hj
          subst hj
          cases j' with
          | openQuote ev' =>
            simp only [erase, Item.openQuote.injEq] at hj'
            subst hj'
            by_cases hq : head.inQuote = true
            · simp only [hq, Bool.not_true, Bool.false_eq_true, if_false]
              cases ev' with
              | true => rfl
              | false =>
                simp only [Bool.not_false, if_true]
                obtain ⟨inner, hi⟩ := writeAll_string cfg (L.openQuote false) (Fmt.new [])
                have h0 : inner.indent = 0 := writeAll_indent hi
                have := ih fuel' true [Frame.default] rest rest' inner hr hr' hzr he (by rw [h0]; rfl) rfl
                simp only [hi]
                revert this
                cases hC : formatCursorC L cfg fuel stringWriter true [Frame.default] rest inner with
                | none => intro _; trivial
                | some x =>
                  cases x with
                  | error g => intro this; simp only [show _ = _ from this]; rfl
                  | ok p =>
                    obtain ⟨g, r⟩ := p
                    intro this
                    obtain ⟨r', e1, e2, e3, e4, e5⟩ := this
                    obtain ⟨g', hg'⟩ := writeAll_string cfg (L.closeQuote false) g
                    obtain ⟨f', hf'⟩ := writeAll_string cfg (L.writeQuoted g'.out) f
                    simp only [e1, hg', hf']
                    exact (ih fuel' eoc _ r r' f' (by omega) (by omega) e5 e2 (keep (writeAll_indent hf')) hs).mono
                      (by simp; omega) (by simp; omega)
            · simp only [hq, Bool.not_false, if_true]
              obtain ⟨g, hg⟩ := writeAll_string cfg (L.openQuote ev') f
              simp only [hg]
              exact go _ _ (keep (writeAll_indent hg)) (bottomed_head hs rfl)
          | _ => simp [erase] at hj'

end Genco
