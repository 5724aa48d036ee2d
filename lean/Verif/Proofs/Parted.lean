import Verif.Spec.Parted
import Verif.Proofs.Gaps

/-!
# Whitespace calls with silent calls among them
-/

set_option autoImplicit false

namespace Genco

open Spec Tokens

variable {ι : Type}

/-- The requests `q` are what the parts `W` ask for. -/
structure Fits (W : List (List WsCall)) (q : List Act) : Prop where
  inv : ∀ x ∈ q, visible x = false
  sum : (q.map actInd).sum = (W.map net).sum
  line : q.any isLine = true ↔ partBreaks W = 2
  push : partBreaks W ≠ 2 → (q.any isPush = true ↔ partBreaks W = 1)
  all : partBreaks W ≠ 2 → q.countP isSpace = (W.map gapSpaces).sum
  tail : (if q.any isLine then afterLast isLine q else afterLast isPush q).countP isSpace = partSpaces W

theorem gapBreaks_le (w : List WsCall) : gapBreaks w ≤ 2 := by
  unfold gapBreaks
  split
  · omega
  · split <;> omega

theorem partBreaks_cons (w : List WsCall) (W : List (List WsCall)) :
    partBreaks (w :: W) = max (gapBreaks w) (partBreaks W) := rfl

theorem partBreaks_le (W : List (List WsCall)) : partBreaks W ≤ 2 := by
  induction W with
  | nil => simp [partBreaks]
  | cons w W ih => rw [partBreaks_cons]; have := gapBreaks_le w; omega

theorem afterLast_none (f : Act → Bool) (q : List Act) (h : q.any f = false) : afterLast f q = q := by
  unfold afterLast
  have := List.takeWhile_append_of_pos (p := fun a => !f a) (l₁ := q.reverse) (l₂ := []) (by
    intro x hx
    have := List.any_eq_false.1 h x (List.mem_reverse.1 hx)
    simpa using this)
  simp only [List.append_nil, List.takeWhile_nil] at this
  rw [this, List.reverse_reverse]

theorem takeWhile_append_any {α : Type} (g : α → Bool) (a b : List α) :
    (a ++ b).takeWhile g = if a.all g then a ++ b.takeWhile g else a.takeWhile g := by
  induction a with
  | nil => simp
  | cons x a ih =>
    by_cases h : g x = true
    · simp only [List.cons_append, List.takeWhile_cons, h, if_true, ih, List.all_cons, Bool.true_and]
      split <;> rfl
    · simp [h]

theorem afterLast_append (f : Act → Bool) (p q : List Act) :
    afterLast f (p ++ q) = if q.any f then afterLast f q else afterLast f p ++ q := by
  unfold afterLast
  rw [List.reverse_append, takeWhile_append_any]
  have h : q.reverse.all (fun a => !f a) = !q.any f := by
    rw [List.all_reverse, List.not_any_eq_all_not]
  rw [h]
  by_cases ha : q.any f = true
  · simp [ha]
  · rw [Bool.not_eq_true] at ha
    simp [ha]

/-- Requests of one part. -/
theorem fits_one {w : List WsCall} {r : List (Item ι)} (hr : GapInv w.reverse r) :
    Fits [w] ((if net w ≠ 0 then [Act.indent (net w)] else []) ++ (r.map softAct).reverse) := by
  have hsoft := hr.soft
  have hsum0 : ((r.map softAct).map actInd).sum = 0 := by
    clear hr
    induction r with
    | nil => rfl
    | cons i r ih =>
      have ih := ih (fun i hi => hsoft i (List.mem_cons_of_mem _ hi))
      have := hsoft i List.mem_cons_self
      cases i <;> simp_all [isSoft, softAct, actInd]
  obtain ⟨t, rfl, ht⟩ := hr
  have hS : w.reverse.takeWhile (fun c => !c.isInd) = (sinceInd w).reverse := by simp [sinceInd]
  rw [hS] at ht
  simp only [List.mem_reverse] at ht
  rw [List.head?_reverse] at *
  obtain ⟨q, hq⟩ : ∃ q, q = (if net w ≠ 0 then [Act.indent (net w)] else []) ++
    (((if w.getLast? = some .space then [(.space : Item ι)] else []) ++ t).map softAct).reverse := ⟨_, rfl⟩
  have hpb : partBreaks [w] = gapBreaks w := by simp [partBreaks]
  have hps : partSpaces [w] = gapSpaces w := by simp [partSpaces, partBreaks]
  have hqr : q = ((if net w ≠ 0 then [Act.indent (net w)] else []) ++ (t.map softAct).reverse) ++
      (List.replicate (gapSpaces w) Act.space) := by
    rw [hq]
    unfold gapSpaces
    by_cases hl : w.getLast? = some .space <;> simp [hl, softAct]
  have hrep : ∀ f : Act → Bool, f .space = false → (List.replicate (gapSpaces w) Act.space).any f = false := by
    intro f h
    rw [List.any_eq_false]
    intro x hx
    rw [(List.mem_replicate.1 hx).2, h]
    simp
  have hcount : (List.replicate (gapSpaces w) Act.space).countP isSpace = gapSpaces w := by
    rw [List.countP_eq_length.2, List.length_replicate]
    intro x hx
    rw [(List.mem_replicate.1 hx).2]
    rfl
  rw [← hq]
  have hlast : ∀ (f : Act → Bool) (p : List Act) (x : Act), f .space = false → f x = true →
      (afterLast f ((p ++ [x]) ++ List.replicate (gapSpaces w) Act.space)).countP isSpace = gapSpaces w := by
    intro f p x h0 h1
    rw [afterLast_append, if_neg (by simp [hrep f h0]), afterLast_append, if_pos (by simp [h1]),
      List.countP_append, hcount]
    simp [afterLast, h1]
  have hinv : ∀ x ∈ q, visible x = false := by
    intro x hx
    rw [hqr] at hx
    simp only [List.mem_append, List.mem_reverse, List.mem_map] at hx
    rcases hx with (hx | ⟨i, hi, rfl⟩) | hx
    · split at hx
      · simp only [List.mem_singleton] at hx; subst hx; rfl
      · simp at hx
    · cases i <;> rfl
    · rw [(List.mem_replicate.1 hx).2]; rfl
  have hsum : (q.map actInd).sum = ([w].map net).sum := by
    rw [hq, List.map_append, List.sum_append, List.map_reverse, List.sum_reverse, hsum0]
    by_cases hz : net w = 0 <;> simp [hz, actInd]
  have hg : gapBreaks w = if .line ∈ sinceInd w then 2 else if .push ∈ sinceInd w ∨ net w ≠ 0 then 1 else 0 := rfl
  by_cases hl : WsCall.line ∈ sinceInd w
  · rw [if_pos hl] at ht
    obtain ⟨t', rfl, ht'⟩ := ht
    rw [if_pos hl] at hg
    have ha : q.any isLine = true := by
      rw [hqr]; simp [softAct, isLine]
    refine ⟨hinv, hsum, by simp [ha, hpb, hg], by simp [hpb, hg], by simp [hpb, hg], ?_⟩
    rw [if_pos ha, hqr, hps]
    have := hlast isLine ((if net w ≠ 0 then [Act.indent (net w)] else []) ++ (t'.map softAct).reverse) .line rfl rfl
    simpa [softAct] using this
  · rw [if_neg hl] at ht hg
    have hp1 : partBreaks [w] ≠ 2 := by rw [hpb, hg]; split <;> omega
    have hno : q.any isLine = false := by
      rw [hqr, List.any_append, hrep isLine rfl]
      split at ht
      · subst ht
        by_cases hz : net w = 0 <;> simp [hz, softAct, isLine]
      · subst ht
        by_cases hz : net w = 0 <;> simp [hz, isLine]
    have hall : q.countP isSpace = gapSpaces w := by
      rw [hqr, List.countP_append, hcount]
      split at ht
      · subst ht
        by_cases hz : net w = 0 <;> simp [hz, softAct, isSpace]
      · subst ht
        by_cases hz : net w = 0 <;> simp [hz, isSpace]
    refine ⟨hinv, hsum, by simp [hno, hp1], fun _ => ?_, fun _ => by simp [hall], ?_⟩
    · rw [hpb, hg, hqr, List.any_append, hrep isPush rfl]
      split at ht
      · rename_i hpu
        subst ht
        simp [softAct, isPush, hpu]
      · rename_i hpu
        subst ht
        by_cases hz : net w = 0 <;> simp [hz, isPush, hpu]
    · rw [if_neg (by simp [hno]), hps]
      by_cases hpush : q.any isPush = true
      · split at ht
        · subst ht
          rw [hqr]
          have := hlast isPush (if net w ≠ 0 then [Act.indent (net w)] else []) .push rfl rfl
          simpa [softAct] using this
        · subst ht
          rw [hqr]
          by_cases hz : net w = 0
          · rw [hqr] at hpush
            simp [hz, hrep isPush rfl] at hpush
          · have := hlast isPush [] (.indent (net w)) rfl rfl
            simpa [hz] using this
      · rw [afterLast_none _ _ (by simpa using hpush), hall]

/-- Requests of a part, something silent, and requests of further parts. -/
theorem fits_cons {w : List WsCall} {W : List (List WsCall)} {q e q' : List Act} (h : Fits [w] q)
    (he : e = [] ∨ e = [.text []]) (h' : Fits W q') : Fits (w :: W) (q ++ (e ++ q')) := by
  have ev : ∀ x ∈ e, visible x = false := by rcases he with rfl | rfl <;> simp [visible]
  have es : (e.map actInd).sum = 0 := by rcases he with rfl | rfl <;> simp [actInd]
  have ea : ∀ f : Act → Bool, f (.text []) = false → e.any f = false := by
    intro f hf; rcases he with rfl | rfl <;> simp [hf]
  have ec : e.countP isSpace = 0 := by rcases he with rfl | rfl <;> simp [isSpace]
  have b1 : partBreaks [w] = gapBreaks w := by simp [partBreaks]
  have s1 : partSpaces [w] = gapSpaces w := by simp [partSpaces, partBreaks]
  have g1 : ([w].map gapSpaces).sum = gapSpaces w := by simp
  have n1 : ([w].map net).sum = net w := by simp
  have hb := partBreaks_cons w W
  have hw2 := gapBreaks_le w
  have hW2 := partBreaks_le W
  obtain ⟨i1, i2, i3, i4, i5, i6⟩ := h
  obtain ⟨j1, j2, j3, j4, j5, j6⟩ := h'
  rw [b1] at i3 i4 i5
  rw [g1] at i5
  rw [s1] at i6
  rw [n1] at i2
  have al : (q ++ (e ++ q')).any isLine = (q.any isLine || q'.any isLine) := by
    rw [List.any_append, List.any_append, ea isLine rfl, Bool.false_or]
  have ap : (q ++ (e ++ q')).any isPush = (q.any isPush || q'.any isPush) := by
    rw [List.any_append, List.any_append, ea isPush rfl, Bool.false_or]
  refine ⟨?_, ?_, ?_, ?_, ?_, ?_⟩
  · intro x hx
    simp only [List.mem_append] at hx
    rcases hx with hx | hx | hx
    · exact i1 x hx
    · exact ev x hx
    · exact j1 x hx
  · rw [List.map_append, List.map_append, List.sum_append, List.sum_append, es, i2, j2]
    simp
  · rw [al, Bool.or_eq_true, i3, j3]
    omega
  · intro hn
    rw [ap, Bool.or_eq_true, i4 (by omega), j4 (by omega)]
    omega
  · intro hn
    rw [List.countP_append, List.countP_append, ec, i5 (by omega), j5 (by omega)]
    simp
  · have tail : ∀ f : Act → Bool, f (.text []) = false → afterLast f (q ++ (e ++ q')) =
        if q'.any f then afterLast f q' else afterLast f q ++ (e ++ q') := by
      intro f hf
      rw [afterLast_append, List.any_append, ea f hf, Bool.false_or]
      split
      · rename_i hq
        rw [afterLast_append, if_pos hq]
      · rfl
    have hsp : partSpaces (w :: W) = if 0 < partBreaks W ∧ gapBreaks w ≤ partBreaks W then partSpaces W
      else gapSpaces w + (W.map gapSpaces).sum := rfl
    rw [al, hsp, tail isLine rfl, tail isPush rfl]
    by_cases hW : partBreaks W = 2
    · have hq' := j3.2 hW
      rw [if_pos hq'] at j6
      rw [if_pos (by simp [hq']), if_pos hq', j6, if_pos (by omega)]
    · have hq' : q'.any isLine = false := by
        rw [← Bool.not_eq_true]; exact fun h => hW (j3.1 h)
      rw [hq', if_neg (by simp)] at j6
      rw [hq', Bool.or_false]
      by_cases hw : gapBreaks w = 2
      · have hq := i3.2 hw
        rw [if_pos hq] at i6 ⊢
        rw [if_neg (by simp), if_neg (by omega), List.countP_append, List.countP_append, ec, i6, j5 hW]
        omega
      · have hq : q.any isLine = false := by
          rw [← Bool.not_eq_true]; exact fun h => hw (i3.1 h)
        rw [hq, if_neg (by simp)] at i6 ⊢
        by_cases hW1 : partBreaks W = 1
        · have hp := (j4 hW).2 hW1
          rw [if_pos hp, j6, if_pos (by omega)]
        · have hp : q'.any isPush = false := by
            rw [← Bool.not_eq_true]; exact fun h => hW1 ((j4 hW).1 h)
          rw [if_neg (by simp [hp]), if_neg (by omega), List.countP_append, List.countP_append, ec, i6, j5 hW]
          omega

theorem silent_run {c : Call ι} (h : Silent c) (f : ι → List Str) (t : Tokens ι) :
    ∃ i, (Call.run t c).rev = i :: t.rev ∧ isWs i = false ∧ (plainActs f i = [] ∨ plainActs f i = [.text []]) := by
  cases h with
  | register i => exact ⟨_, rfl, rfl, .inl rfl⟩
  | empty s hs => exact ⟨_, rfl, rfl, .inr (by simp [plainActs, hs])⟩

theorem fits_nil_seg (f : ι → List Str) (t : Tokens ι) (ht : Closed t.rev) (w : List WsCall) :
    ∃ q, Fits [w] q ∧
      ((w.map WsCall.call).foldl Call.run t).items.flatMap (plainActs f) = t.items.flatMap (plainActs f) ++ q := by
  obtain ⟨r, hr, hs⟩ := gap_shape ht t rfl w.reverse
  rw [List.reverse_reverse, net_reverse] at hs
  refine ⟨_, fits_one hr, ?_⟩
  have hi : (indPart (net w) : List (Item ι)).reverse.flatMap (plainActs f) =
      if net w ≠ 0 then [Act.indent (net w)] else [] := by
    unfold indPart
    by_cases hz : net w = 0 <;> simp [hz, plainActs]
  have hsoft : r.reverse.flatMap (plainActs f) = (r.map softAct).reverse := by
    rw [soft_acts _ _ (fun i hi => hr.soft i (by simpa using hi)), List.map_reverse]
  simp only [items, hs, List.reverse_append, List.flatMap_append, hi, hsoft, List.append_assoc]

/-- The requests of all parts. -/
theorem fits_all (f : ι → List Str) (ps : List (Call ι × List WsCall)) (hp : ∀ p ∈ ps, Silent p.1) :
    ∀ (t : Tokens ι) (_ : Closed t.rev) (w : List WsCall), ∃ q, Fits (w :: ps.map Prod.snd) q ∧
      ((w.map WsCall.call ++ ps.flatMap (fun p : Call ι × List WsCall => p.1 :: p.2.map WsCall.call)).foldl Call.run t).items.flatMap
        (plainActs f) = t.items.flatMap (plainActs f) ++ q := by
  induction ps with
  | nil =>
    intro t ht w
    obtain ⟨q, h1, h2⟩ := fits_nil_seg f t ht w
    exact ⟨q, h1, by simpa using h2⟩
  | cons p ps ih =>
    intro t ht w
    obtain ⟨q, h1, h2⟩ := fits_nil_seg f t ht w
    obtain ⟨i, k1, k2, k3⟩ := silent_run (hp p (by simp)) f ((w.map WsCall.call).foldl Call.run t)
    obtain ⟨q', h3, h4⟩ := ih (fun x hx => hp x (by simp [hx]))
      (Call.run ((w.map WsCall.call).foldl Call.run t) p.1) (by rw [k1]; exact k2) p.2
    refine ⟨q ++ (plainActs f i ++ q'), fits_cons h1 k3 h3, ?_⟩
    have hit : (Call.run ((w.map WsCall.call).foldl Call.run t) p.1).items.flatMap (plainActs f) =
        t.items.flatMap (plainActs f) ++ q ++ plainActs f i := by
      rw [← h2]
      simp only [items, k1, List.reverse_cons, List.flatMap_append, List.flatMap_cons, List.flatMap_nil, List.append_nil]
    rw [hit] at h4
    rw [List.flatMap_cons, List.foldl_append, List.cons_append, List.foldl_cons, ← List.foldl_append] at *
    rw [List.foldl_append] at h4
    rw [List.foldl_append, h4]
    simp

/-- Placement after the requests of parts. -/
theorem place_parts (cfg : Config) (p : List Act) (a s : Str) (ha : a ≠ []) {W : List (List WsCall)} {q : List Act}
    (h : Fits W q) : (place (p ++ [.text a] ++ q) s).render cfg = partText cfg (p.map actInd).sum W ++ s := by
  have hgap := gap_text p q a ha h.inv
  have hfirst := isFirst_text p q a ha
  have hsum : ((p ++ [Act.text a] ++ q).map actInd).sum = (p.map actInd).sum + (W.map net).sum := by
    rw [List.map_append, List.map_append, List.sum_append, List.sum_append, h.sum]
    simp [actInd]
  have hb : breaks (p ++ [.text a] ++ q) = partBreaks W := by
    have hle := partBreaks_le W
    unfold breaks
    rw [hgap, hfirst, if_neg (by simp)]
    by_cases h2 : partBreaks W = 2
    · rw [if_pos (h.line.2 h2), h2]
    · rw [if_neg (fun x => h2 (h.line.1 x))]
      by_cases h1 : partBreaks W = 1
      · rw [if_pos ((h.push h2).2 h1), h1]
      · rw [if_neg (fun x => h1 ((h.push h2).1 x))]
        omega
  have hs : seps (p ++ [.text a] ++ q) = partSpaces W := by
    rw [← h.tail]
    unfold seps
    rw [hgap, hfirst, if_neg (by simp)]
    split <;> rfl
  simp only [place, Piece.render, hb, hs, level, hsum, hfirst, partText, Bool.false_or]
  by_cases h0 : partBreaks W > 0
  · simp [h0, lineStart]
  · have : partBreaks W = 0 := by omega
    simp [this, lineStart]

end Genco
