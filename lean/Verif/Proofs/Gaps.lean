import Verif.Proofs.Tokens
import Verif.Proofs.Layout
import Verif.Spec.Gaps

/-!
# Whitespace calls between texts, and interpolated streams
-/

set_option autoImplicit false

namespace Genco

open Spec Tokens

variable {ι : Type}

/-! ## Operations on top of something that is not whitespace -/

/-- Nothing, or the last item is not whitespace. -/
def Closed : List (Item ι) → Prop
  | [] => True
  | i :: _ => isWs i = false

theorem spaceRev_base {b : List (Item ι)} (hb : Closed b) (r : List (Item ι)) :
    spaceRev (r ++ b) = spaceRev r ++ b := by
  cases r with
  | nil =>
    cases b with
    | nil => rfl
    | cons i b => cases i <;> first | rfl | simp [Closed] at hb
  | cons i r => cases i <;> rfl

theorem pushRev_base {b : List (Item ι)} (hb : Closed b) (r : List (Item ι)) :
    pushRev (r ++ b) = pushRev r ++ b := by
  induction r with
  | nil =>
    cases b with
    | nil => rfl
    | cons i b => cases i <;> first | rfl | simp [Closed] at hb
  | cons i r ih => cases i <;> first | rfl | simpa [pushRev] using ih

theorem lineRev_base {b : List (Item ι)} (hb : Closed b) (r : List (Item ι)) :
    lineRev (r ++ b) = lineRev r ++ b := by
  induction r with
  | nil =>
    cases b with
    | nil => rfl
    | cons i b => cases i <;> first | rfl | simp [Closed] at hb
  | cons i r ih => cases i <;> first | rfl | simpa [lineRev] using ih

theorem indentationRev_base {b : List (Item ι)} (hb : Closed b) (n : Int) (r : List (Item ι)) :
    indentationRev n (r ++ b) = indentationRev n r ++ b := by
  induction r generalizing n with
  | nil =>
    cases b with
    | nil => simp
    | cons i b =>
      cases i <;> first | (simp only [List.nil_append, indentationRev]; split <;> rfl) | simp [Closed] at hb
  | cons i r ih =>
    cases i <;> simp only [List.cons_append, indentationRev] <;>
      first | exact ih _ | (split <;> rfl)

theorem erase_spaceRev (r : List (Item ι)) : (spaceRev r).map erase = spaceRev (r.map erase) := by
  cases r with
  | nil => rfl
  | cons i r => cases i <;> rfl

theorem erase_pushRev (r : List (Item ι)) : (pushRev r).map erase = pushRev (r.map erase) := by
  induction r with
  | nil => rfl
  | cons i r ih => cases i <;> first | rfl | exact ih

theorem erase_lineRev (r : List (Item ι)) : (lineRev r).map erase = lineRev (r.map erase) := by
  induction r with
  | nil => rfl
  | cons i r ih => cases i <;> first | rfl | exact ih

theorem erase_indentationRev (n : Int) (r : List (Item ι)) :
    (indentationRev n r).map erase = indentationRev n (r.map erase) := by
  induction r generalizing n with
  | nil => simp only [List.map_nil, indentationRev]; split <;> rfl
  | cons i r ih =>
    cases i <;> simp only [List.map_cons, erase, indentationRev] <;>
      first | exact ih _ | (split <;> rfl)

/-- On top of something that is not whitespace, a stream develops as on its own. -/
theorem extend_base (t : Tokens ι) (hb : Closed t.rev) (l : List (Item ι)) :
    (t.extend l).rev.map erase = (fromIter l).rev.map erase ++ t.rev.map erase := by
  have key : ∀ (l : List (Item ι)) (a : Tokens ι) (r : List (Item ι)), a.rev = r ++ t.rev →
      ∀ c : Tokens ι, c.rev.map erase = r.map erase →
      (a.extend l).rev.map erase = (c.extend l).rev.map erase ++ t.rev.map erase := by
    intro l
    induction l with
    | nil => intro a r h c hc; simp [extend, h, hc]
    | cons i l ih =>
      intro a r h c hc
      have es : ∀ x y : List (Item ι), x.map erase = y.map erase →
          (spaceRev x).map erase = (spaceRev y).map erase := by
        intro x y h; rw [erase_spaceRev, h, ← erase_spaceRev]
      have ep : ∀ x y : List (Item ι), x.map erase = y.map erase →
          (pushRev x).map erase = (pushRev y).map erase := by
        intro x y h; rw [erase_pushRev, h, ← erase_pushRev]
      have el : ∀ x y : List (Item ι), x.map erase = y.map erase →
          (lineRev x).map erase = (lineRev y).map erase := by
        intro x y h; rw [erase_lineRev, h, ← erase_lineRev]
      have ei : ∀ (x y : List (Item ι)) (n : Int), x.map erase = y.map erase →
          (indentationRev n x).map erase = (indentationRev n y).map erase := by
        intro x y n h; rw [erase_indentationRev, h, ← erase_indentationRev]
      have step : ∃ r', (a.item i).rev = r' ++ t.rev ∧ (c.item i).rev.map erase = r'.map erase := by
        cases i with
        | push => exact ⟨pushRev r, by simp [item, push, h, pushRev_base hb], ep _ _ hc⟩
        | line => exact ⟨lineRev r, by simp [item, line, h, lineRev_base hb], el _ _ hc⟩
        | space => exact ⟨spaceRev r, by simp [item, space, h, spaceRev_base hb], es _ _ hc⟩
        | indentation n =>
          exact ⟨indentationRev n r, by simp [item, indentation, h, indentationRev_base hb], ei _ _ _ hc⟩
        | lang p x => exact ⟨.lang a.lastLangItem x :: r, by simp [item, langItem, h], by simp [item, langItem, hc, erase]⟩
        | register p x =>
          exact ⟨.register a.lastLangItem x :: r, by simp [item, langItemRegister, h],
            by simp [item, langItemRegister, hc, erase]⟩
        | literal s => exact ⟨.literal s :: r, by simp [item, h], by simp [item, hc]⟩
        | openQuote e => exact ⟨.openQuote e :: r, by simp [item, h], by simp [item, hc]⟩
        | closeQuote => exact ⟨.closeQuote :: r, by simp [item, h], by simp [item, hc]⟩
        | openEval => exact ⟨.openEval :: r, by simp [item, h], by simp [item, hc]⟩
        | closeEval => exact ⟨.closeEval :: r, by simp [item, h], by simp [item, hc]⟩
      obtain ⟨r', h1, h2⟩ := step
      exact ih (a.item i) r' h1 (c.item i) h2
  exact key l t [] rfl new rfl

theorem linked_extend {t : Tokens ι} (h : Linked t) (l : List (Item ι)) : Linked (t.extend l) := by
  induction l generalizing t with
  | nil => exact h
  | cons i l ih => exact ih (h.item i)

theorem eq_of_linked {s t : Tokens ι} (hs : Linked s) (ht : Linked t)
    (h : s.rev.map erase = t.rev.map erase) : s = t := by
  have h1 := eq_of_erase hs.1 ht.1 h
  obtain ⟨r, n⟩ := s
  obtain ⟨r', n'⟩ := t
  simp only at h1
  subst h1
  congr 1
  exact hs.2.trans ht.2.symm

theorem fromIter_idem (l : List (Item ι)) : fromIter (fromIter l).items = fromIter l := by
  have hl := linked_fromIter l
  have := fromIter_reverse (nf_fromIter l) hl.1
  unfold items
  rw [this]
  obtain ⟨h1, h2⟩ := hl
  generalize fromIter l = t at *
  obtain ⟨r, n⟩ := t
  simp only at h2
  rw [h2]

/-- Extending by a normalised stream is the same as making its calls, if the
stream to extend does not end in whitespace. -/
theorem extend_items (t : Tokens ι) (hl : Linked t) (hb : Closed t.rev) (l : List (Item ι)) :
    t.extend (fromIter l).items = t.extend l := by
  refine eq_of_linked (linked_extend hl _) (linked_extend hl _) ?_
  rw [extend_base t hb, extend_base t hb, fromIter_idem]

theorem item_closed (t : Tokens ι) (i : Item ι) (hi : isWs i = false) :
    ∃ j, isWs j = false ∧ erase j = erase i ∧ (t.item i).rev = j :: t.rev := by
  cases i <;> simp at hi <;> first | exact ⟨_, rfl, rfl, rfl⟩ | exact ⟨.lang t.lastLangItem _, rfl, rfl, rfl⟩ | exact ⟨.register t.lastLangItem _, rfl, rfl, rfl⟩

theorem item_erase (t : Tokens ι) {i j : Item ι} (h : erase i = erase j) : t.item i = t.item j := by
  cases i <;> cases j <;> simp_all [erase, item]

theorem extend_erase (t : Tokens ι) {a b : List (Item ι)} (h : a.map erase = b.map erase) :
    t.extend a = t.extend b := by
  induction a generalizing b t with
  | nil => cases b with
    | nil => rfl
    | cons _ _ => simp at h
  | cons i a ih => cases b with
    | nil => simp at h
    | cons j b =>
      simp only [List.map_cons, List.cons.injEq] at h
      show (t.item i).extend a = (t.item j).extend b
      rw [item_erase t h.1, ih _ h.2]

/-- A stream splits at any item that is not whitespace. -/
theorem fromIter_split (w l : List (Item ι)) (i : Item ι) (hi : isWs i = false) :
    (fromIter (w ++ i :: l)).items.map erase =
      (fromIter w).items.map erase ++ erase i :: (fromIter l).items.map erase := by
  have : fromIter (w ++ i :: l) = ((fromIter w).item i).extend l := by
    simp [fromIter, extend]
  rw [this]
  obtain ⟨j, h1, h2, h3⟩ := item_closed (fromIter w) i hi
  have := extend_base ((fromIter w).item i) (by rw [h3]; exact h1) l
  unfold items
  rw [List.map_reverse, this, h3]
  simp [h2]

/-! ## Plain items stay plain -/

theorem mem_spaceRev {i : Item ι} {r : List (Item ι)} (h : i ∈ spaceRev r) : i = .space ∨ i ∈ r := by
  cases r with
  | nil => exact Or.inl (by simpa [spaceRev] using h)
  | cons u r =>
    cases u <;> first | exact Or.inr h | exact List.mem_cons.1 h

theorem mem_pushRev {i : Item ι} {r : List (Item ι)} (h : i ∈ pushRev r) : i = .push ∨ i ∈ r := by
  induction r with
  | nil => exact Or.inl (by simpa [pushRev] using h)
  | cons u r ih =>
    cases u <;> first | exact List.mem_cons.1 h | exact Or.inr h | exact (ih h).imp id (List.mem_cons_of_mem _)

theorem mem_lineRev {i : Item ι} {r : List (Item ι)} (h : i ∈ lineRev r) : i = .line ∨ i ∈ r := by
  induction r with
  | nil => exact Or.inl (by simpa [lineRev] using h)
  | cons u r ih =>
    cases u <;> first | exact List.mem_cons.1 h | exact (ih h).imp id (List.mem_cons_of_mem _)

theorem mem_indentationRev {i : Item ι} {n : Int} {r : List (Item ι)} (h : i ∈ indentationRev n r) :
    (∃ m, i = .indentation m) ∨ i ∈ r := by
  induction r generalizing n with
  | nil =>
    simp only [indentationRev] at h
    split at h
    · exact Or.inl ⟨n, by simpa using h⟩
    · simp at h
  | cons u r ih =>
    cases u <;> simp only [indentationRev] at h <;> first | exact (ih h).imp id (List.mem_cons_of_mem _) | skip
    all_goals
      split at h
      · exact (List.mem_cons.1 h).imp (fun e => ⟨n, e⟩) id
      · exact Or.inr h

theorem plain_extend (l : List (Item ι)) (hp : ∀ i ∈ l, isPlain i = true) (t : Tokens ι)
    (ht : ∀ i ∈ t.rev, isPlain i = true) : ∀ i ∈ (t.extend l).rev, isPlain i = true := by
  induction l generalizing t with
  | nil => exact ht
  | cons x l ih =>
    refine ih (fun i hi => hp i (List.mem_cons_of_mem _ hi)) (t.item x) ?_
    have hx := hp x List.mem_cons_self
    intro i hi
    cases x with
    | push => rcases mem_pushRev hi with rfl | h; rfl; exact ht i h
    | line => rcases mem_lineRev hi with rfl | h; rfl; exact ht i h
    | space => rcases mem_spaceRev hi with rfl | h; rfl; exact ht i h
    | indentation n => rcases mem_indentationRev hi with ⟨m, rfl⟩ | h; rfl; exact ht i h
    | openQuote e => simp [isPlain] at hx
    | closeQuote => simp [isPlain] at hx
    | openEval => simp [isPlain] at hx
    | closeEval => simp [isPlain] at hx
    | _ => rcases List.mem_cons.1 hi with rfl | h; rfl; exact ht i h

theorem plain_fromIter (l : List (Item ι)) (hp : ∀ i ∈ l, isPlain i = true) :
    ∀ i ∈ (fromIter l).items, isPlain i = true := by
  intro i hi
  exact plain_extend l hp new (by simp [new]) i (by simpa [items, fromIter] using hi)

/-! ## Shape of a gap -/

/-- Space, push or line. -/
def isSoft : Item ι → Bool
  | .space | .push | .line => true
  | _ => false

theorem indentationRev_soft (n : Int) (r b : List (Item ι)) (h : ∀ i ∈ r, isSoft i = true) :
    indentationRev n (r ++ b) = indentationRev n b := by
  induction r with
  | nil => rfl
  | cons i r ih =>
    have ih := ih (fun i hi => h i (List.mem_cons_of_mem _ hi))
    have := h i List.mem_cons_self
    cases i <;> simp_all [isSoft, indentationRev]

/-- The indentation item for a net indentation. -/
def indPart (n : Int) : List (Item ι) := if n ≠ 0 then [.indentation n] else []

/-- Items left by the calls `v` (newest first) after the last change of
indentation. -/
def GapInv (v : List WsCall) (r : List (Item ι)) : Prop :=
  ∃ t, r = (if v.head? = some .space then [.space] else []) ++ t ∧
    if .line ∈ v.takeWhile (fun c => !c.isInd) then
      ∃ t', t = .line :: t' ∧ ∀ i ∈ t', isSoft i = true
    else if .push ∈ v.takeWhile (fun c => !c.isInd) then t = [.push]
    else t = []

/-- Not space, push or line on top. -/
def Firm : List (Item ι) → Prop
  | [] => True
  | i :: _ => isSoft i = false

theorem spaceRev_firm {b : List (Item ι)} (hb : Firm b) : spaceRev b = .space :: b := by
  cases b with
  | nil => rfl
  | cons i b => cases i <;> first | rfl | simp [Firm, isSoft] at hb

theorem pushRev_firm {b : List (Item ι)} (hb : Firm b) : pushRev b = .push :: b := by
  cases b with
  | nil => rfl
  | cons i b => cases i <;> first | rfl | simp [Firm, isSoft] at hb

theorem lineRev_firm {b : List (Item ι)} (hb : Firm b) : lineRev b = .line :: b := by
  cases b with
  | nil => rfl
  | cons i b => cases i <;> first | rfl | simp [Firm, isSoft] at hb

theorem lineRev_soft {b : List (Item ι)} (hb : Firm b) (r : List (Item ι))
    (h : ∀ i ∈ r, isSoft i = true) :
    ∃ t', lineRev (r ++ b) = .line :: t' ++ b ∧ ∀ i ∈ t', isSoft i = true := by
  induction r with
  | nil => exact ⟨[], lineRev_firm hb, by simp⟩
  | cons i r ih =>
    obtain ⟨t', h1, h2⟩ := ih (fun i hi => h i (List.mem_cons_of_mem _ hi))
    have := h i List.mem_cons_self
    cases i with
    | push => exact ⟨t', h1, h2⟩
    | line => exact ⟨t', h1, h2⟩
    | space => exact ⟨.space :: r, rfl, by simpa using h⟩
    | _ => simp [isSoft] at this

theorem GapInv.soft {v : List WsCall} {r : List (Item ι)} (h : GapInv v r) :
    ∀ i ∈ r, isSoft i = true := by
  obtain ⟨t, rfl, ht⟩ := h
  intro i hi
  simp only [List.mem_append] at hi
  rcases hi with hi | hi
  · split at hi
    · simp only [List.mem_singleton] at hi; subst hi; rfl
    · simp at hi
  · split at ht
    · obtain ⟨t', rfl, ht'⟩ := ht
      simp only [List.mem_cons] at hi
      rcases hi with rfl | hi
      · rfl
      · exact ht' i hi
    · split at ht
      · subst ht
        simp only [List.mem_singleton] at hi; subst hi; rfl
      · subst ht; simp at hi

/-- Effect of a soft call. -/
theorem gap_step_space {v : List WsCall} {r b : List (Item ι)} (h : GapInv v r) (hb : Firm b) :
    ∃ r', GapInv (.space :: v) r' ∧ spaceRev (r ++ b) = r' ++ b := by
  obtain ⟨t, rfl, ht⟩ := h
  refine ⟨.space :: t, ⟨t, by simp, ?_⟩, ?_⟩
  · have : List.takeWhile (fun c => !c.isInd) (WsCall.space :: v) =
        .space :: List.takeWhile (fun c => !c.isInd) v := rfl
    rw [this]
    simpa only [List.mem_cons, reduceCtorEq, false_or] using ht
  · split
    · rfl
    · split at ht
      · obtain ⟨t', rfl, _⟩ := ht; rfl
      · split at ht
        · subst ht; rfl
        · subst ht; exact spaceRev_firm hb

theorem gap_step_push {v : List WsCall} {r b : List (Item ι)} (h : GapInv v r) (hb : Firm b) :
    ∃ r', GapInv (.push :: v) r' ∧ pushRev (r ++ b) = r' ++ b := by
  obtain ⟨t, rfl, ht⟩ := h
  have hs : pushRev (((if v.head? = some .space then [.space] else []) ++ t) ++ b) = pushRev (t ++ b) := by
    split <;> rfl
  rw [hs]
  split at ht
  · rename_i hl
    obtain ⟨t', rfl, h'⟩ := ht
    refine ⟨.line :: t', ⟨.line :: t', by simp, ?_⟩, rfl⟩
    have : WsCall.line ∈ List.takeWhile (fun c => !c.isInd) (.push :: v) := by
      simpa [List.takeWhile, WsCall.isInd] using hl
    rw [if_pos this]
    exact ⟨t', rfl, h'⟩
  · rename_i hl
    refine ⟨[.push], ⟨[.push], by simp, ?_⟩, ?_⟩
    · have h1 : WsCall.line ∉ List.takeWhile (fun c => !c.isInd) (.push :: v) := by
        simpa [List.takeWhile, WsCall.isInd] using hl
      have h2 : WsCall.push ∈ List.takeWhile (fun c => !c.isInd) (.push :: v) := by
        simp [List.takeWhile, WsCall.isInd]
      rw [if_neg h1, if_pos h2]
    · split at ht
      · subst ht; exact pushRev_firm hb
      · subst ht; exact pushRev_firm hb

theorem gap_step_line {v : List WsCall} {r b : List (Item ι)} (h : GapInv v r) (hb : Firm b) :
    ∃ r', GapInv (.line :: v) r' ∧ lineRev (r ++ b) = r' ++ b := by
  obtain ⟨t', h1, h2⟩ := lineRev_soft hb r h.soft
  refine ⟨.line :: t', ⟨.line :: t', by simp, ?_⟩, h1⟩
  have : WsCall.line ∈ List.takeWhile (fun c => !c.isInd) (.line :: v) := by
    simp [List.takeWhile, WsCall.isInd]
  rw [if_pos this]
  exact ⟨t', rfl, h2⟩

theorem gapInv_ind (c : WsCall) (hc : c.isInd = true) (v : List WsCall) :
    GapInv (ι := ι) (c :: v) [] := by
  refine ⟨[], ?_, ?_⟩
  · cases c <;> simp [WsCall.isInd] at hc ⊢
  · simp [List.takeWhile, hc]

theorem firm_indPart (n : Int) {b : List (Item ι)} (hb : Closed b) : Firm (indPart n ++ b) := by
  unfold indPart
  split
  · rfl
  · cases b with
    | nil => trivial
    | cons i b => cases i <;> first | rfl | simp [Closed] at hb

/-- The calls as seen newest first. -/
theorem net_cons (c : WsCall) (v : List WsCall) :
    net (c :: v) = net v + (if c = .indent then 1 else if c = .unindent then -1 else 0) := by
  cases c <;> simp [net] <;> omega

theorem net_reverse (w : List WsCall) : net w.reverse = net w := by simp [net]

/-- Shape of the stream after whitespace calls. -/
theorem gap_shape {b : List (Item ι)} (hb : Closed b) (t : Tokens ι) (ht : t.rev = b)
    (v : List WsCall) :
    ∃ r, GapInv v r ∧
      ((v.reverse.map WsCall.call).foldl Call.run t).rev = r ++ (indPart (net v) ++ b) := by
  induction v with
  | nil => exact ⟨[], ⟨[], by simp, by simp⟩, by simp [indPart, net, ht]⟩
  | cons c v ih =>
    obtain ⟨r, h1, h2⟩ := ih
    have hf := firm_indPart (net v) hb
    have hrun : (((c :: v).reverse.map WsCall.call).foldl Call.run t) =
        Call.run ((v.reverse.map WsCall.call).foldl Call.run t) c.call := by
      simp
    rw [hrun]
    generalize ((v.reverse.map WsCall.call).foldl Call.run t) = u at h2
    have hind : ∀ n : Int, indentationRev n u.rev = indPart (n + net v) ++ b := by
      intro n
      rw [h2, indentationRev_soft n r _ h1.soft]
      have hz : ∀ m : Int, indentationRev m b = indPart m ++ b := by
        intro m
        cases b with
        | nil => unfold indPart; simp only [indentationRev]; split <;> rfl
        | cons i b =>
          cases i <;> first | (unfold indPart; simp only [indentationRev]; split <;> rfl) | simp [Closed] at hb
      unfold indPart
      by_cases hn : net v = 0
      · simp [hn, hz, indPart]
      · simp only [ne_eq, hn, not_false_eq_true, if_true, List.singleton_append, indentationRev, hz]
        rfl
    cases c with
    | space =>
      obtain ⟨r', h3, h4⟩ := gap_step_space h1 hf
      refine ⟨r', h3, ?_⟩
      rw [net_cons]
      simpa [WsCall.call, Call.run, space, h2] using h4
    | push =>
      obtain ⟨r', h3, h4⟩ := gap_step_push h1 hf
      refine ⟨r', h3, ?_⟩
      rw [net_cons]
      simpa [WsCall.call, Call.run, push, h2] using h4
    | line =>
      obtain ⟨r', h3, h4⟩ := gap_step_line h1 hf
      refine ⟨r', h3, ?_⟩
      rw [net_cons]
      simpa [WsCall.call, Call.run, line, h2] using h4
    | indent =>
      refine ⟨[], gapInv_ind _ rfl _, ?_⟩
      rw [net_cons]
      simpa [WsCall.call, Call.run, indent, indentation, Int.add_comm] using hind 1
    | unindent =>
      refine ⟨[], gapInv_ind _ rfl _, ?_⟩
      rw [net_cons]
      simpa [WsCall.call, Call.run, unindent, indentation, Int.add_comm] using hind (-1)

/-! ## Rendering a gap -/

theorem piecesFrom_append (p q r : List Act) :
    piecesFrom p (q ++ r) = piecesFrom p q ++ piecesFrom (p ++ q) r := by
  induction q generalizing p with
  | nil => simp [piecesFrom]
  | cons a q ih => cases a <;> simp [piecesFrom, ih]

theorem piecesFrom_invisible (p q : List Act) (h : ∀ a ∈ q, visible a = false) :
    piecesFrom p q = [] := by
  induction q generalizing p with
  | nil => rfl
  | cons a q ih =>
    have := h a List.mem_cons_self
    have ih := fun p => ih p (fun a ha => h a (List.mem_cons_of_mem _ ha))
    cases a with
    | text s =>
      have hs : s = [] := by simpa [visible] using this
      simp [piecesFrom, hs, ih]
    | _ => simp [piecesFrom, ih]

theorem render_concat (cfg : Config) (p q : List Act) (h : ∀ a ∈ q, visible a = false) (s : Str)
    (hs : s ≠ []) :
    render cfg (p ++ q ++ [.text s]) = render cfg p ++ (place (p ++ q) s).render cfg := by
  simp [render, pieces, piecesFrom_append, piecesFrom_invisible _ q h, piecesFrom, hs]

/-- Rendering continues in the same way after states that agree. -/
theorem render_append (cfg : Config) (p q : List Act) :
    render cfg (p ++ q) = render cfg p ++ evText cfg.newline (actsEv cfg (specSt p) q) := by
  simp only [render, pieces, piecesFrom_append, List.flatMap_append, List.nil_append]
  rw [← actsSt_spec, evText_acts]

theorem gap_text (p q : List Act) (a : Str) (ha : a ≠ []) (h : ∀ x ∈ q, visible x = false) :
    gap (p ++ [.text a] ++ q) = q := by
  have hv : visible (.text a) = true := by simp [visible, ha]
  unfold gap afterLast
  simp only [List.append_assoc, List.reverse_append, List.reverse_cons, List.singleton_append]
  rw [List.takeWhile_append_of_pos (by intro x hx; simp [h x (by simpa using hx)])]
  simp [hv]

theorem isFirst_text (p q : List Act) (a : Str) (ha : a ≠ []) :
    isFirst (p ++ [.text a] ++ q) = false := by
  simp [isFirst, visible, ha]

/-- The action of a soft item. -/
def softAct : Item ι → Act
  | .push => .push
  | .line => .line
  | _ => .space

theorem soft_acts (f : ι → List Str) (r : List (Item ι)) (h : ∀ i ∈ r, isSoft i = true) :
    r.flatMap (plainActs f) = r.map softAct := by
  induction r with
  | nil => rfl
  | cons i r ih =>
    have ih := ih (fun i hi => h i (List.mem_cons_of_mem _ hi))
    have := h i List.mem_cons_self
    cases i <;> simp_all [isSoft, plainActs, softAct]

/-- Placement after a gap. -/
theorem place_gap (cfg : Config) (p : List Act) (a s : Str) (ha : a ≠ []) (n : Int)
    (v : List WsCall) (r : List (Item ι)) (hr : GapInv v r) (hn : n = net v) :
    (place (p ++ [.text a] ++ ((if n ≠ 0 then [Act.indent n] else []) ++ (r.map softAct).reverse)) s).render cfg =
      gapText cfg (p.map actInd).sum v.reverse ++ s := by
  obtain ⟨q, hq⟩ : ∃ q, q = (if n ≠ 0 then [Act.indent n] else []) ++ (r.map softAct).reverse :=
    ⟨_, rfl⟩
  rw [← hq]
  have hsoft := hr.soft
  have hinv : ∀ x ∈ q, visible x = false := by
    intro x hx
    rw [hq] at hx
    simp only [List.mem_append, List.mem_reverse, List.mem_map] at hx
    rcases hx with hx | ⟨i, hi, rfl⟩
    · split at hx
      · simp only [List.mem_singleton] at hx; subst hx; rfl
      · simp at hx
    · cases i <;> rfl
  have hgap := gap_text p q a ha hinv
  have hfirst := isFirst_text p q a ha
  have hsum : ((p ++ [Act.text a] ++ q).map actInd).sum = (p.map actInd).sum + n := by
    have h0 : ((r.map softAct).map actInd).sum = 0 := by
      clear hq hr hgap hfirst hinv
      induction r with
      | nil => rfl
      | cons i r ih =>
        have ih := ih (fun i hi => hsoft i (List.mem_cons_of_mem _ hi))
        have := hsoft i List.mem_cons_self
        cases i <;> simp_all [isSoft, softAct, actInd]
    simp only [hq, List.map_append, List.sum_append, List.map_reverse, List.sum_reverse, h0]
    by_cases hz : n = 0 <;> simp [hz, actInd]
  obtain ⟨t, rfl, ht⟩ := hr
  have hS : sinceInd v.reverse = (v.takeWhile (fun c => !c.isInd)).reverse := by simp [sinceInd]
  have hlast : v.reverse.getLast? = v.head? := by simp
  simp only [place, Piece.render, breaks, seps, level, hgap, hfirst, hsum, gapText, gapBreaks,
    gapSpaces, hS, hlast, List.mem_reverse, net_reverse, ← hn, Bool.false_eq_true, if_false]
  have hqany : ∀ f : Act → Bool, q.any f =
      ((n ≠ 0 : Bool) && f (.indent n) || (((if v.head? = some .space then [(.space : Item ι)] else []) ++ t).any (fun i => f (softAct i)))) := by
    intro f
    by_cases hz : n = 0 <;> simp [hq, hz, List.any_append, Function.comp_def, Bool.or_comm]
  have hqcount : ∀ f : Act → Bool, f .space = false → (∀ i, t.head? = some i → f (softAct i) = true) →
      (t = [] → n ≠ 0 → f (.indent n) = true) →
      (afterLast f q).countP isSpace = if v.head? = some .space then 1 else 0 := by
    intro f h1 h2 h3
    have : q.reverse = (if v.head? = some .space then [Act.space] else []) ++ (t.map softAct ++ (if n ≠ 0 then [Act.indent n] else [])) := by
      by_cases hz : n = 0 <;> by_cases hv : v.head? = some .space <;> simp [hq, hz, hv, softAct]
    unfold afterLast
    rw [this]
    have htw : List.takeWhile (fun a => !f a) (t.map softAct ++ (if n ≠ 0 then [Act.indent n] else [])) = [] := by
      cases t with
      | nil =>
        by_cases hz : n = 0
        · simp [hz]
        · simp [hz, h3 rfl hz]
      | cons i t => simp [h2 i rfl]
    by_cases hv : v.head? = some .space
    · rw [if_pos hv, if_pos hv, List.singleton_append, List.takeWhile_cons, htw]
      simp [h1]
    · rw [if_neg hv, if_neg hv, List.nil_append, htw]
      rfl
  have hspace : ∀ f : Act → Bool, f .space = false →
      (((if v.head? = some .space then [(.space : Item ι)] else []) ++ t).any (fun i => f (softAct i))) =
      t.any (fun i => f (softAct i)) := by
    intro f h1
    split <;> simp [softAct, h1]
  rw [hqany, hqany, hspace isLine rfl, hspace isPush rfl]
  simp only [isLine_indent, isPush_indent, Bool.and_false, Bool.false_or, Bool.and_true]
  by_cases hl : WsCall.line ∈ v.takeWhile (fun c => !c.isInd)
  · rw [if_pos hl] at ht
    obtain ⟨t', rfl, ht'⟩ := ht
    have hc := hqcount isLine rfl (by intro i hi; simp at hi; subst hi; rfl) (by simp)
    simp only [hl, if_true, hc]
    simp [softAct, lineStart]
  · rw [if_neg hl] at ht
    by_cases hp : WsCall.push ∈ v.takeWhile (fun c => !c.isInd)
    · rw [if_pos hp] at ht
      subst ht
      have hc := hqcount isPush rfl (by intro i hi; simp at hi; subst hi; rfl) (by simp)
      simp only [hl, hp, if_false, true_or, if_true, hc]
      simp [softAct, lineStart]
    · rw [if_neg hp] at ht
      subst ht
      have hc := hqcount isPush rfl (by simp) (by intro _ _; rfl)
      simp only [hl, hp, if_false, hc]
      by_cases hz : n = 0
      · simp [hz, lineStart]
      · simp [hz, lineStart]

/-! ## Normalised gaps -/

theorem indentationRev_twice (m n : Int) (r : List (Item ι)) :
    indentationRev m (indentationRev n r) = indentationRev (m + n) r := by
  have z : ∀ b : List (Item ι), Closed b →
      indentationRev m (if n ≠ 0 then .indentation n :: b else b) =
        if m + n ≠ 0 then .indentation (m + n) :: b else b := by
    intro b hb
    have hz : ∀ k : Int, indentationRev k b = if k ≠ 0 then .indentation k :: b else b := by
      intro k
      cases b with
      | nil => rfl
      | cons i b => cases i <;> first | rfl | simp [Closed] at hb
    by_cases hn : n = 0
    · simp [hn, hz]
    · simp only [ne_eq, hn, not_false_eq_true, if_true, indentationRev, hz]
  induction r generalizing n with
  | nil => exact z [] trivial
  | cons i r ih =>
    cases i with
    | push => exact ih n z
    | line => exact ih n z
    | space => exact ih n z
    | indentation u =>
      simp only [indentationRev]
      rw [ih, Int.add_assoc]
      intro b hb
      have hz : ∀ k : Int, indentationRev k b = if k ≠ 0 then .indentation k :: b else b := by
        intro k
        cases b with
        | nil => rfl
        | cons i b => cases i <;> first | rfl | simp [Closed] at hb
      by_cases hn : n + u = 0
      · simp [hn, hz]
      · simp only [ne_eq, hn, not_false_eq_true, if_true, indentationRev, hz]
    | _ => exact z _ rfl

/-- `n` indents or `-n` unindents. -/
def indCalls (n : Int) : List WsCall :=
  List.replicate n.toNat .indent ++ List.replicate (-n).toNat .unindent

theorem run_indCalls (n : Int) (hn : n ≠ 0) (t : Tokens ι) :
    ((indCalls n).map WsCall.call).foldl Call.run t = t.item (.indentation n) := by
  have key : ∀ (c : WsCall) (d : Int), (∀ t : Tokens ι, Call.run t c.call = t.indentation d) →
      ∀ (k : Nat) (t : Tokens ι), ((List.replicate (k + 1) c).map WsCall.call).foldl Call.run t =
        t.indentation ((k + 1 : Nat) * d) := by
    intro c d hc k
    induction k with
    | zero => intro t; simp [hc]
    | succ k ih =>
      intro t
      rw [List.replicate_succ, List.map_cons, List.foldl_cons, ih, hc]
      simp only [indentation, indentationRev_twice]
      congr 2
      push_cast
      rw [Int.add_mul, Int.add_mul, Int.add_mul]
      omega
  unfold indCalls
  by_cases h : 0 < n
  · obtain ⟨k, hk⟩ : ∃ k : Nat, n = (k : Int) + 1 := ⟨(n - 1).toNat, by omega⟩
    have h1 : n.toNat = k + 1 := by omega
    have h2 : (-n).toNat = 0 := by omega
    rw [h1, h2, List.replicate_zero, List.append_nil, key .indent 1 (fun _ => rfl)]
    simp only [item]
    congr 1
    omega
  · obtain ⟨k, hk⟩ : ∃ k : Nat, -n = (k : Int) + 1 := ⟨(-n - 1).toNat, by omega⟩
    have h1 : (-n).toNat = k + 1 := by omega
    have h2 : n.toNat = 0 := by omega
    rw [h1, h2, List.replicate_zero, List.nil_append, key .unindent (-1) (fun _ => rfl)]
    simp only [item]
    congr 1
    omega

/-- The call of a soft item. -/
def softCall : Item ι → WsCall
  | .push => .push
  | .line => .line
  | _ => .space

/-- The calls a normalised gap stands for. -/
def normCalls (n : Int) (r : List (Item ι)) : List WsCall :=
  indCalls n ++ (r.map softCall).reverse

theorem run_soft (r : List (Item ι)) (h : ∀ i ∈ r, isSoft i = true) (t : Tokens ι) :
    ((r.map softCall).map WsCall.call).foldl Call.run t = t.extend r := by
  induction r generalizing t with
  | nil => rfl
  | cons i r ih =>
    have ih := ih (fun i hi => h i (List.mem_cons_of_mem _ hi))
    have := h i List.mem_cons_self
    simp only [List.map_cons, List.foldl_cons, ih]
    cases i <;> first | rfl | simp [isSoft] at this

theorem run_normCalls (n : Int) (r : List (Item ι)) (h : ∀ i ∈ r, isSoft i = true) (t : Tokens ι) :
    ((normCalls n r).map WsCall.call).foldl Call.run t = t.extend (r ++ indPart n).reverse := by
  rw [normCalls, List.map_append, List.foldl_append, List.reverse_append, extend_append,
    ← List.map_reverse, run_soft _ (fun i hi => h i (by simpa using hi))]
  congr 1
  by_cases hn : n = 0
  · subst hn; rfl
  · rw [run_indCalls n hn]
    simp [indPart, hn, extend]

theorem net_append (a b : List WsCall) : net (a ++ b) = net a + net b := by
  simp [net]; omega

theorem net_indCalls (n : Int) : net (indCalls n) = n := by
  simp [net, indCalls, List.count_replicate]; omega

theorem net_soft (r : List (Item ι)) : net (r.map softCall) = 0 := by
  induction r with
  | nil => rfl
  | cons i r ih => rw [List.map_cons, net_cons, ih]; cases i <;> rfl

theorem net_normCalls (n : Int) (r : List (Item ι)) : net (normCalls n r) = n := by
  rw [normCalls, net_append, net_indCalls, net_reverse, net_soft, Int.add_zero]

theorem sinceInd_append (a b : List WsCall) :
    sinceInd (a ++ b) = if b.any WsCall.isInd then sinceInd b else sinceInd a ++ b := by
  unfold sinceInd
  rw [List.reverse_append]
  by_cases h : b.any WsCall.isInd = true
  · rw [if_pos h, List.takeWhile_append, if_neg]
    intro hl
    have hall := (List.takeWhile_sublist (fun c : WsCall => !c.isInd) (l := b.reverse)).eq_of_length hl
    simp only [List.any_eq_true] at h
    obtain ⟨c, hc, hi⟩ := h
    have : c ∈ List.takeWhile (fun c : WsCall => !c.isInd) b.reverse := by rw [hall]; simpa using hc
    have hall' : ∀ (l : List WsCall), c ∈ l.takeWhile (fun c => !c.isInd) → c.isInd = false := by
      intro l
      induction l with
      | nil => simp
      | cons x l ih =>
        rw [List.takeWhile_cons]
        split
        · rename_i hx
          intro h
          rcases List.mem_cons.1 h with rfl | h
          · simpa using hx
          · exact ih h
        · simp
    rw [hall' _ this] at hi
    simp at hi
  · rw [if_neg h, List.takeWhile_append_of_pos]
    · simp
    · intro c hc
      simp only [List.any_eq_true, not_exists, not_and] at h
      simpa using h c (by simpa using hc)

theorem any_isInd_soft (r : List (Item ι)) : (r.map softCall).reverse.any WsCall.isInd = false := by
  rw [List.any_eq_false]
  intro c hc
  simp only [List.mem_reverse, List.mem_map] at hc
  obtain ⟨i, _, rfl⟩ := hc
  cases i <;> simp [softCall, WsCall.isInd]

theorem any_isInd_indCalls (n : Int) (hn : n ≠ 0) : (indCalls n).any WsCall.isInd = true := by
  unfold indCalls
  rw [List.any_eq_true]
  by_cases h : 0 < n
  · exact ⟨.indent, by simp; omega, rfl⟩
  · exact ⟨.unindent, by simp; omega, rfl⟩

theorem getLast?_append_ne {α : Type} {a b : List α} (h : b ≠ []) :
    (a ++ b).getLast? = b.getLast? := by
  rcases List.eq_nil_or_concat b with rfl | ⟨b', c, rfl⟩
  · exact absurd rfl h
  · rw [List.concat_eq_append, ← List.append_assoc]; simp

theorem gapBreaks_congr {a b : List WsCall} (hn : net a = net b)
    (hl : .line ∈ sinceInd a ↔ .line ∈ sinceInd b)
    (hp : .line ∉ sinceInd b → (.push ∈ sinceInd a ↔ .push ∈ sinceInd b)) :
    gapBreaks a = gapBreaks b := by
  unfold gapBreaks
  by_cases h : WsCall.line ∈ sinceInd b
  · rw [if_pos h, if_pos (hl.2 h)]
  · rw [if_neg h, if_neg (fun x => h (hl.1 x))]
    simp only [hp h, hn]

/-- A normalised gap means the same as the original calls, wherever it is made,
unless the original calls change the indentation but cancel out. -/
theorem gapText_norm (cfg : Config) (l : Int) (wa wb : List WsCall) (r : List (Item ι))
    (hr : GapInv wb.reverse r) (hwb : net wb ≠ 0 ∨ wb.any WsCall.isInd = false) :
    gapText cfg l (wa ++ normCalls (net wb) r) = gapText cfg l (wa ++ wb) := by
  have hsoft := hr.soft
  have hmem : ∀ (i : Item ι) (c : WsCall), (∀ j : Item ι, isSoft j = true → (softCall j = c ↔ j = i)) →
      (c ∈ (r.map softCall).reverse ↔ i ∈ r) := by
    intro i c h
    simp only [List.mem_reverse, List.mem_map]
    constructor
    · rintro ⟨j, hj, hc⟩
      rw [← (h j (hsoft j hj)).1 hc]; exact hj
    · intro hi
      exact ⟨i, hi, (h i (hsoft i hi)).2 rfl⟩
  have hline := hmem .line .line (by intro j hj; cases j <;> simp [isSoft, softCall] at hj ⊢)
  have hpush := hmem .push .push (by intro j hj; cases j <;> simp [isSoft, softCall] at hj ⊢)
  have hS : sinceInd wb = (wb.reverse.takeWhile (fun c => !c.isInd)).reverse := rfl
  obtain ⟨t, hrt, ht⟩ := hr
  have hSm : ∀ c, c ∈ sinceInd wb ↔ c ∈ wb.reverse.takeWhile (fun c => !c.isInd) := by
    intro c; rw [hS, List.mem_reverse]
  simp only [← hSm] at ht
  -- membership in r
  have hrl : (Item.line ∈ r) ↔ WsCall.line ∈ sinceInd wb := by
    constructor
    · intro h
      apply Classical.byContradiction
      intro hn
      rw [if_neg hn] at ht
      rw [hrt] at h
      split at ht <;> subst ht <;> split at h <;> simp at h
    · intro h
      rw [if_pos h] at ht
      obtain ⟨t', rfl, _⟩ := ht
      rw [hrt]; simp
  have hrp : WsCall.line ∉ sinceInd wb → ((Item.push ∈ r) ↔ WsCall.push ∈ sinceInd wb) := by
    intro hn
    rw [if_neg hn] at ht
    constructor
    · intro h
      apply Classical.byContradiction
      intro hp
      rw [if_neg hp] at ht
      subst ht
      rw [hrt] at h
      split at h <;> simp at h
    · intro h
      rw [if_pos h] at ht
      subst ht
      rw [hrt]; simp
  -- last call
  have hlast : (wa ++ normCalls (net wb) r).getLast? = some .space ↔
      (wa ++ wb).getLast? = some .space := by
    have hwl : wb.getLast? = wb.reverse.head? := by simp
    by_cases hre : r = []
    · subst hre
      have hnosp : ¬ wb.reverse.head? = some .space := by
        intro h; rw [if_pos h] at hrt; simp at hrt
      by_cases hn : net wb = 0
      · -- no indentation at all, so no calls
        have hni : wb.any WsCall.isInd = false := by
          rcases hwb with h | h
          · exact absurd hn h
          · exact h
        have hwbe : sinceInd wb = wb := by
          have := sinceInd_append [] wb
          simpa [hni, sinceInd] using this
        rw [hwbe] at hrl hrp
        have hnl : WsCall.line ∉ wb := by rw [← hrl]; simp
        have hnp : WsCall.push ∉ wb := by rw [← hrp hnl]; simp
        have : wb = [] := by
          rcases List.eq_nil_or_concat wb with h | ⟨w', c, rfl⟩
          · exact h
          · exfalso
            cases c <;> simp [WsCall.isInd] at hnl hnp hnosp hni
        subst this
        simp [normCalls, indCalls, net]
      · have h1 : normCalls (ι := ι) (net wb) [] = indCalls (net wb) := by simp [normCalls]
        rw [h1]
        have h2 : ∀ c, (wa ++ indCalls (net wb)).getLast? = some c → c.isInd = true := by
          intro c hc
          unfold indCalls at hc
          by_cases hp : 0 < net wb
          · obtain ⟨k, hk⟩ : ∃ k : Nat, (net wb).toNat = k + 1 := ⟨(net wb).toNat - 1, by omega⟩
            have hz : (-net wb).toNat = 0 := by omega
            rw [hk, hz, List.replicate_succ'] at hc
            simp at hc
            subst hc; rfl
          · obtain ⟨k, hk⟩ : ∃ k : Nat, (-net wb).toNat = k + 1 := ⟨(-net wb).toNat - 1, by omega⟩
            rw [hk, List.replicate_succ', ← List.append_assoc, ← List.append_assoc] at hc
            simp at hc
            subst hc; rfl
        have hwne : wb ≠ [] := by rintro rfl; simp [net] at hn
        constructor
        · intro h; have := h2 _ h; simp [WsCall.isInd] at this
        · intro h
          rw [getLast?_append_ne hwne, hwl] at h
          exact absurd h hnosp
    · have hwne : wb ≠ [] := by
        rintro rfl
        apply hre
        rw [hrt]
        simpa [sinceInd] using ht
      rw [getLast?_append_ne hwne, hwl]
      have hne : (r.map softCall).reverse ≠ [] := by simpa using hre
      rw [normCalls, ← List.append_assoc, getLast?_append_ne hne,
        List.getLast?_reverse, List.head?_map]
      rw [hrt]
      by_cases hv : wb.reverse.head? = some .space
      · simp [hv, softCall]
      · rw [if_neg hv]
        simp only [List.nil_append]
        constructor
        · intro h
          exfalso
          split at ht
          · obtain ⟨t', rfl, _⟩ := ht; simp [softCall] at h
          · split at ht
            · subst ht; simp [softCall] at h
            · subst ht; simp at h
        · intro h; exact absurd h hv
  -- breaks
  have hbr : gapBreaks (wa ++ normCalls (net wb) r) = gapBreaks (wa ++ wb) := by
    have hnet : net (wa ++ normCalls (net wb) r) = net (wa ++ wb) := by
      rw [net_append, net_append, net_normCalls]
    by_cases hi : wb.any WsCall.isInd = true
    · have hn : net wb ≠ 0 := by
        rcases hwb with h | h
        · exact h
        · rw [hi] at h; simp at h
      have h1 : sinceInd (wa ++ wb) = sinceInd wb := by rw [sinceInd_append, if_pos hi]
      have h2 : sinceInd (wa ++ normCalls (net wb) r) = (r.map softCall).reverse := by
        rw [normCalls, ← List.append_assoc, sinceInd_append, any_isInd_soft]
        simp only [Bool.false_eq_true, if_false]
        rw [sinceInd_append, any_isInd_indCalls _ hn, if_pos rfl]
        have : sinceInd (indCalls (net wb)) = [] := by
          unfold sinceInd indCalls
          by_cases hp : 0 < net wb
          · obtain ⟨k, hk⟩ : ∃ k : Nat, (net wb).toNat = k + 1 := ⟨(net wb).toNat - 1, by omega⟩
            have hz : (-net wb).toNat = 0 := by omega
            rw [hk, hz, List.reverse_append, List.reverse_replicate, List.reverse_replicate]
            rfl
          · obtain ⟨k, hk⟩ : ∃ k : Nat, (-net wb).toNat = k + 1 := ⟨(-net wb).toNat - 1, by omega⟩
            rw [hk, List.reverse_append, List.reverse_replicate, List.reverse_replicate]
            rfl
        rw [this, List.nil_append]
      refine gapBreaks_congr hnet ?_ ?_
      · rw [h1, h2, hline, hrl]
      · rw [h1, h2, hpush]; exact hrp
    · have hi' : wb.any WsCall.isInd = false := by simpa using hi
      have hn : net wb = 0 := by
        have h1 : wb.count .indent = 0 := List.count_eq_zero.2 (fun h => by
          rw [List.any_eq_false] at hi'; simpa [WsCall.isInd] using hi' _ h)
        have h2 : wb.count .unindent = 0 := List.count_eq_zero.2 (fun h => by
          rw [List.any_eq_false] at hi'; simpa [WsCall.isInd] using hi' _ h)
        simp [net, h1, h2]
      have hwbe : sinceInd wb = wb := by
        have := sinceInd_append [] wb
        simpa [hi', sinceInd] using this
      have h1 : sinceInd (wa ++ wb) = sinceInd wa ++ wb := by
        rw [sinceInd_append, hi']; simp
      have h2 : sinceInd (wa ++ normCalls (net wb) r) = sinceInd wa ++ (r.map softCall).reverse := by
        have : normCalls (net wb) r = (r.map softCall).reverse := by simp [normCalls, hn, indCalls]
        rw [this, sinceInd_append, any_isInd_soft]; simp
      rw [hwbe] at hrl hrp
      refine gapBreaks_congr hnet ?_ ?_
      · rw [h1, h2, List.mem_append, List.mem_append, hline, hrl]
      · rw [h1, h2]
        intro hl
        rw [List.mem_append] at hl
        rw [List.mem_append, List.mem_append, hpush, hrp (fun h => hl (Or.inr h))]
  unfold gapText gapSpaces
  simp only [hbr, hlast, net_append, net_normCalls]


theorem sinceInd_noInd (w : List WsCall) : ∀ c ∈ sinceInd w, c.isInd = false := by
  have : ∀ l : List WsCall, ∀ c ∈ l.takeWhile (fun c => !c.isInd), c.isInd = false := by
    intro l
    induction l with
    | nil => simp
    | cons a l ih =>
      intro c hc
      rw [List.takeWhile_cons] at hc
      split at hc
      · rename_i ha
        rcases List.mem_cons.1 hc with rfl | hc
        · simpa using ha
        · exact ih c hc
      · simp at hc
  intro c hc
  exact this _ c (List.mem_reverse.1 hc)

theorem net_sinceInd (w : List WsCall) : net (sinceInd w) = 0 := by
  have h := sinceInd_noInd w
  have h1 : (sinceInd w).count .indent = 0 := List.count_eq_zero.2 (fun hm => by simpa [WsCall.isInd] using h _ hm)
  have h2 : (sinceInd w).count .unindent = 0 := List.count_eq_zero.2 (fun hm => by simpa [WsCall.isInd] using h _ hm)
  simp [net, h1, h2]

theorem takeWhile_takeWhile {α : Type} (p : α → Bool) (l : List α) :
    (l.takeWhile p).takeWhile p = l.takeWhile p := by
  induction l with
  | nil => rfl
  | cons a l ih => by_cases h : p a <;> simp [h, ih]

/-- What is on top depends on the calls since the last change of the indentation only. -/
theorem GapInv.since {w : List WsCall} {r : List (Item ι)} (h : GapInv w.reverse r) :
    GapInv (sinceInd w).reverse r := by
  obtain ⟨t, h1, h2⟩ := h
  refine ⟨t, ?_, ?_⟩
  · rw [h1, sinceInd, List.reverse_reverse]
    congr 1
    cases w.reverse with
    | nil => rfl
    | cons c v => cases c <;> simp [WsCall.isInd]
  · rw [sinceInd, List.reverse_reverse, takeWhile_takeWhile]
    exact h2

/-- A normalised gap means what is left of the calls, wherever it is made. -/
theorem gapText_lead (cfg : Config) (l : Int) (wa wb : List WsCall) (r : List (Item ι))
    (hr : GapInv wb.reverse r) :
    gapText cfg l (wa ++ normCalls (net wb) r) = gapText cfg l (wa ++ lead wb) := by
  unfold lead
  by_cases h : net wb = 0
  · rw [if_pos h, h, ← net_sinceInd wb]
    refine gapText_norm cfg l wa _ r hr.since (Or.inr ?_)
    rw [List.any_eq_false]
    intro c hc
    simp [sinceInd_noInd wb c hc]
  · rw [if_neg h]
    exact gapText_norm cfg l wa wb r hr (Or.inl h)

theorem net_lead (w : List WsCall) : net (lead w) = net w := by
  unfold lead
  split
  · rename_i h; rw [net_sinceInd, h]
  · rfl

/-- Calls that do not cancel out are all left. -/
theorem lead_of (w : List WsCall) (h : net w ≠ 0 ∨ ∀ c ∈ w, c ≠ .indent ∧ c ≠ .unindent) :
    lead w = w := by
  unfold lead
  rcases h with h | h
  · rw [if_neg h]
  · have : sinceInd w = w := by
      have ht : ∀ l : List WsCall, (∀ c ∈ l, c ≠ .indent ∧ c ≠ .unindent) →
          l.takeWhile (fun c => !c.isInd) = l := by
        intro l hl
        induction l with
        | nil => rfl
        | cons a l ih =>
          have ha := hl a List.mem_cons_self
          rw [List.takeWhile_cons, ih (fun c hc => hl c (List.mem_cons_of_mem _ hc))]
          cases a <;> simp_all [WsCall.isInd]
      unfold sinceInd
      rw [ht _ (fun c hc => h c (List.mem_reverse.1 hc)), List.reverse_reverse]
    rw [this]
    split <;> rfl

theorem margin_no_break (cfg : Config) (n : Nat) : (marginText cfg n).count '\n' = 0 := by
  unfold marginText
  split <;> simp [List.count_replicate]

/-- The text of a gap tells how many line breaks and spaces were asked for. -/
theorem gapText_inj (cfg : Config) (hn : '\n' ∈ cfg.newline) (l : Int) (v w : List WsCall)
    (hvw : net v = net w) (h : gapText cfg l v = gapText cfg l w) :
    gapBreaks v = gapBreaks w ∧ gapSpaces v = gapSpaces w := by
  have hc : ∀ u : List WsCall, (gapText cfg l u).count '\n' = gapBreaks u * cfg.newline.count '\n' := by
    intro u
    unfold gapText
    have h1 : ∀ n, ((List.replicate n cfg.newline).flatten).count '\n' = n * cfg.newline.count '\n' := by
      intro n
      induction n with
      | zero => simp
      | succ n ih => rw [List.replicate_succ, List.flatten_cons, List.count_append, ih]; rw [Nat.succ_mul]; omega
    rw [List.count_append, List.count_append, h1]
    have h2 : (if gapBreaks u > 0 then marginText cfg (l + net u).toNat else []).count '\n' = 0 := by
      split
      · exact margin_no_break _ _
      · rfl
    rw [h2]
    simp [List.count_replicate]
  have hb : gapBreaks v = gapBreaks w := by
    have := hc v
    rw [h, hc w] at this
    exact (Nat.eq_of_mul_eq_mul_right (List.count_pos_iff.2 hn) this).symm
  refine ⟨hb, ?_⟩
  unfold gapText at h
  rw [hb, hvw] at h
  have := congrArg List.length (List.append_cancel_left h)
  simpa using this

end Genco
