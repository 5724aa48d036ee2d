import Verif.Proofs.TemplateRun
import Verif.Spec.Void

/-!
# Holes that write nothing
-/

set_option autoImplicit false

namespace Genco.Macro

open Spec Spec.MacroFile Spec.Template Tokens

variable {ι E Env : Type}

/-! ## Gaps -/

/-- Line breaks as a state. -/
def lineOf : Nat → Whitespace
  | 0 => .none
  | 1 => .push
  | _ => .line

theorem soft_state (f : ι → List Str) (l : List (Item ι)) (hl : ∀ i ∈ l, isSoft i = true) : ∀ (st : LSt), st.line ≠ .initial →
    (actsSt st ((l.map erase).flatMap (plainActs f))).line ≠ .initial ∧
    (actsSt st ((l.map erase).flatMap (plainActs f))).indent = st.indent := by
  induction l with
  | nil => intro st h; exact ⟨h, rfl⟩
  | cons i l ih =>
    intro st h
    have hi := hl i (by simp)
    rw [List.map_cons, List.flatMap_cons, actsSt_append]
    have key : (actsSt st (plainActs f (erase i))).line ≠ .initial ∧
        (actsSt st (plainActs f (erase i))).indent = st.indent := by
      obtain ⟨a, b, c⟩ := st
      cases i <;> first | (simp [isSoft] at hi; done) | skip
      all_goals cases a <;> first | (simp at h; done) | skip
      all_goals simp [erase, plainActs, actsSt, actSt]
    obtain ⟨k1, k2⟩ := key
    obtain ⟨h1, h2⟩ := ih (fun i hi => hl i (by simp [hi])) _ k1
    exact ⟨h1, h2.trans k2⟩

/-- The state behind a gap. -/
theorem gap_state (f : ι → List Str) (w : List WsCall) (k : Int) :
    actsSt ⟨.none, 0, k⟩ (actsFor f (gapItems w)) = ⟨lineOf (gapBreaks w), gapSpaces w, k + net w⟩ := by
  obtain ⟨r, ⟨t, rfl, ht⟩, h2⟩ := gap_shape (b := ([] : List (Item ι))) trivial Tokens.new rfl w.reverse
  have e : norm (gapItems (ι := ι) w) = (((if w.reverse.head? = some WsCall.space then [Item.space] else []) ++ t ++
      (indPart (net w) ++ [])).reverse).map erase := by
    rw [norm, Tokens.items]
    congr 2
    rw [List.reverse_reverse, net_reverse] at h2
    rw [← h2]
    have := history_eq (w.map (WsCall.call (ι := ι)))
    unfold history at this
    rw [this, gapItems, List.flatMap_map]
  have hsp : gapSpaces w = if w.reverse.head? = some .space then 1 else 0 := by
    rw [gapSpaces, List.head?_reverse]
  have hbr : gapBreaks w = if .line ∈ w.reverse.takeWhile (fun c => !c.isInd) then 2
      else if .push ∈ w.reverse.takeWhile (fun c => !c.isInd) ∨ net w ≠ 0 then 1 else 0 := by
    unfold gapBreaks sinceInd
    simp only [List.mem_reverse]
  rw [actsFor, e, hsp, hbr]
  simp only [List.append_nil, List.reverse_append, List.map_append, List.flatMap_append, actsSt_append]
  have h0 : actsSt ⟨.none, 0, k⟩ (((indPart (ι := ι) (net w)).reverse.map erase).flatMap (plainActs f)) =
      ⟨if net w ≠ 0 then .push else .none, 0, k + net w⟩ := by
    unfold indPart
    by_cases hn : net w = 0
    · simp [hn, actsSt]
    · simp [hn, actsSt, actSt, erase, plainActs]
  rw [h0]
  split at ht
  · rename_i hl
    obtain ⟨t', rfl, hs⟩ := ht
    rw [if_pos hl]
    obtain ⟨s1, s2⟩ := soft_state f t'.reverse (fun i hi => hs i (by simpa using hi))
      ⟨if net w ≠ 0 then .push else .none, 0, k + net w⟩ (by split <;> simp)
    rw [List.reverse_cons, List.map_append, List.flatMap_append, actsSt_append]
    generalize actsSt ⟨if net w ≠ 0 then .push else .none, 0, k + net w⟩ _ = x at s1 s2
    obtain ⟨a, b, c⟩ := x
    dsimp only at s1 s2
    subst s2
    by_cases hp : w.reverse.head? = some WsCall.space <;> cases a <;>
      simp_all [actsSt, actSt, erase, plainActs, lineOf]
  · rename_i hl
    rw [if_neg hl]
    split at ht
    · rename_i hp
      subst ht
      by_cases hn : net w = 0 <;> by_cases hh : w.reverse.head? = some WsCall.space <;>
        simp_all [actsSt, actSt, erase, plainActs, lineOf]
    · rename_i hp
      subst ht
      by_cases hn : net w = 0 <;> by_cases hh : w.reverse.head? = some WsCall.space <;>
        simp_all [actsSt, actSt, erase, plainActs, lineOf]

/-! ## The same blocks with gaps that look the same -/

structure GapEq (w w' : List WsCall) : Prop where
  breaks : gapBreaks w = gapBreaks w'
  net : Spec.net w = Spec.net w'
  spaces : gapSpaces w = gapSpaces w'

/-- `k` is the level at the start. -/
inductive Alike (L : Lang ι) (cfg : Config) : Nat → List (Call ι) → List (Call ι) → Prop
  | done {k : Nat} (w w' : List WsCall) : (k : Int) + net w = 0 →
      Alike L cfg k (w.map WsCall.call) (w'.map WsCall.call)
  | next {k : Nat} {w w' : List WsCall} {B X Y : List (Call ι)} (m : Nat) : (k : Int) + net w = m → GapEq w w' →
      Template.Block L cfg B → Alike L cfg m X Y →
      Alike L cfg k (w.map WsCall.call ++ (B ++ X)) (w'.map WsCall.call ++ (B ++ Y))

theorem items_call (w : List WsCall) : (w.map (WsCall.call (ι := ι))).flatMap callItems = gapItems w := by
  rw [List.flatMap_map, gapItems]

theorem whole_state (st : LSt) {B : List Act} (h : Whole (seen B)) :
    actsSt st B = ⟨.none, 0, (actsSt st B).indent⟩ := by
  have g := actsSt_last st (seen B) h.last
  rw [actsSt_seen] at g
  generalize actsSt st B = x at g
  obtain ⟨a, b, c⟩ := x
  dsimp only at g
  rw [g.1, g.2]

theorem vec_gap (cfg : Config) (f : ι → List Str) (w : List WsCall) (r : List Act) (st : LSt) (v : VecState) :
    vecActs cfg st v (actsFor f (gapItems w) ++ r) = vecActs cfg (actsSt st (actsFor f (gapItems w))) v r := by
  rw [vecActs_append, vecActs_soft cfg _ (soft_gap _ _)]

theorem lev_soft (k : Nat) (l : List (Item ι)) (f : ι → List Str) (h : ∀ i ∈ l, isSoft i = true) :
    Lev k (seen ((l.map erase).flatMap (plainActs f))) k := by
  induction l with
  | nil => exact ⟨by simp [seen], fun p hp => by cases List.prefix_nil.1 hp; simp⟩
  | cons i l ih =>
    rw [List.map_cons, List.flatMap_cons, seen_append]
    refine Lev.append ?_ (ih (fun i hi => h i (by simp [hi])))
    have hi := h i (by simp)
    cases i <;> first | (simp [isSoft] at hi; done) | exact lev_single k _ k (by simp [actInd])

theorem lev_gap (f : ι → List Str) (w : List WsCall) (k m : Nat) (h : (k : Int) + net w = m) :
    Lev k (seen (actsFor f (gapItems w))) m := by
  obtain ⟨r, hr, h2⟩ := gap_shape (b := ([] : List (Item ι))) trivial Tokens.new rfl w.reverse
  have e : norm (gapItems (ι := ι) w) = ((r ++ (indPart (net w) ++ [])).reverse).map erase := by
    rw [norm, Tokens.items]
    congr 2
    rw [List.reverse_reverse, net_reverse] at h2
    rw [← h2]
    have := history_eq (w.map (WsCall.call (ι := ι)))
    unfold history at this
    rw [this, gapItems, List.flatMap_map]
  rw [actsFor, e]
  simp only [List.append_nil, List.reverse_append, List.map_append, List.flatMap_append, seen_append]
  refine Lev.append (m := m) ?_ (lev_soft m _ f (fun i hi => hr.soft i (by simpa using hi)))
  unfold indPart
  by_cases hn : net w = 0
  · rw [hn] at h
    have : k = m := by omega
    subst this
    simp only [hn, ne_eq, not_true, if_false]
    exact ⟨by simp [seen], fun p hp => by cases List.prefix_nil.1 hp; simp⟩
  · rw [if_pos hn]
    have : seen (([Item.indentation (ι := ι) (net w)].reverse.map erase).flatMap (plainActs f)) = [.indent (net w)] := by
      simp [erase, plainActs, seen, hn]
    rw [this]
    exact lev_single k (.indent (net w)) m (by simpa [actInd] using h)

theorem alike_code {L : Lang ι} {cfg : Config} {k : Nat} {X Y : List (Call ι)} (h : Alike L cfg k X Y) :
    ∃ A A', CodeOf (X.flatMap callItems) A ∧ CodeOf (Y.flatMap callItems) A' ∧ (∀ (k : Int) (v : VecState),
      (vecActs cfg ⟨.none, 0, k⟩ v (A.acts L cfg)).intoVec = (vecActs cfg ⟨.none, 0, k⟩ v (A'.acts L cfg)).intoVec) ∧
      Lev k (seen (A.acts L cfg)) 0 ∧
      ((∀ r x, X.flatMap callItems = r ++ [x] → isWs x = false) → Ends (seen (A.acts L cfg))) := by
  induction h with
  | done w w' hn =>
    refine ⟨_, _, by rw [items_call]; exact codeOf_gap _, by rw [items_call]; exact codeOf_gap _, fun k v => ?_, ?_, ?_⟩
    · rw [gapCode_acts, gapCode_acts, vecActs_soft cfg _ (soft_gap _ _), vecActs_soft cfg _ (soft_gap _ _)]
    · rw [gapCode_acts]
      exact lev_gap _ _ _ 0 hn
    · intro hl
      rcases List.eq_nil_or_concat w with rfl | ⟨r, c, rfl⟩
      · exact .inl rfl
      · rw [items_call, List.concat_eq_append, gapItems, List.flatMap_append] at hl
        cases c <;> cases hl _ _ rfl
  | @next k w w' B X Y m hn hg hB _ ih =>
    obtain ⟨A, A', h1, h2, h3, h4, h5⟩ := ih
    obtain ⟨c, hp, hc, hw⟩ := hB.code
    refine ⟨_, _, by rw [List.flatMap_append, List.flatMap_append, items_call]; exact codeOf_block hB hp hc w h1,
      by rw [List.flatMap_append, List.flatMap_append, items_call]; exact codeOf_block hB hp hc w' h2, fun k v => ?_, ?_, ?_⟩
    · rw [append_acts, append_acts, append_acts, append_acts, gapCode_acts, gapCode_acts, vec_gap, vec_gap, gap_state,
        gap_state, hg.breaks, hg.net, hg.spaces, vecActs_append, vecActs_append cfg _ (A'.acts L cfg), whole_state _ hw, h3]
    · rw [append_acts, append_acts, gapCode_acts, seen_append, seen_append]
      exact (lev_gap _ _ _ _ hn).append ((lev_whole hw _).append h4)
    · intro hl
      rw [append_acts, append_acts, seen_append, seen_append]
      refine ends_block hw (h5 (fun r x hx => hl ((w.map WsCall.call).flatMap callItems ++ (B.flatMap callItems ++ r)) x ?_))
      rw [List.flatMap_append, List.flatMap_append, hx]
      simp

/-- Pushes and lines at the top. -/
theorem top_state (f : ι → List Str) (w : List WsCall) (h : ∀ c ∈ w, c = .push ∨ c = .line) :
    actsSt .new (actsFor f (gapItems w)) = .new := by
  have hv : ∀ (w : List WsCall), (∀ c ∈ w, c = .push ∨ c = .line) → ∀ (t : Tokens ι), (∀ i ∈ t.rev, i = .push ∨ i = .line) →
      ∀ i ∈ (t.extend (gapItems w)).rev, i = .push ∨ i = .line := by
    intro w
    induction w with
    | nil => intro _ t ht; exact ht
    | cons c w ih =>
      intro hw t ht
      have e : t.extend (gapItems (c :: w)) = (t.extend (callItems c.call)).extend (gapItems w) := by
        rw [gapItems, List.flatMap_cons, Tokens.extend, Tokens.extend, Tokens.extend, List.foldl_append]
        rfl
      rw [e]
      refine ih (fun c hc => hw c (by simp [hc])) _ ?_
      rcases hw c (by simp) with rfl | rfl
      · intro i hi
        rcases mem_pushRev hi with h | h
        · exact .inl h
        · exact ht i h
      · intro i hi
        rcases mem_lineRev hi with h | h
        · exact .inr h
        · exact ht i h
  have key : ∀ l : List (Item ι), (∀ i ∈ l, i = .push ∨ i = .line) →
      actsSt .new ((l.map erase).flatMap (plainActs f)) = .new := by
    intro l
    induction l with
    | nil => intro _; rfl
    | cons i l ih =>
      intro hl
      rw [List.map_cons, List.flatMap_cons, actsSt_append]
      have : actsSt .new (plainActs f (erase i)) = .new := by
        rcases hl i (by simp) with rfl | rfl <;> rfl
      rw [this]
      exact ih (fun i hi => hl i (by simp [hi]))
  rw [actsFor, norm]
  refine key _ (fun i hi => ?_)
  rw [Tokens.items, List.mem_reverse] at hi
  exact hv w h Tokens.new (by intro i hi; cases hi) i hi

theorem alike_vec (L : Lang ι) (hQ : HomQuote L) (cfg : Config) {B X Y : List (Call ι)} (w : List WsCall)
    {k : Nat} (hw : ∀ c ∈ w, c = .push ∨ c = .line) (hB : Template.Block L cfg B) (h : Alike L cfg k X Y)
    (hE : Uniform L ((w.map WsCall.call ++ (B ++ X)).flatMap callItems))
    (hE' : Uniform L ((B ++ Y).flatMap callItems)) :
    toVec L cfg (history (w.map WsCall.call ++ (B ++ X))).items = toVec L cfg (history (B ++ Y)).items := by
  obtain ⟨A, A', h1, h2, h3, -⟩ := alike_code h
  obtain ⟨c, hp, hc, hw'⟩ := hB.code
  have c1 : CodeOf ((w.map WsCall.call ++ (B ++ X)).flatMap callItems) ((gapCode w).append (c.append A)) := by
    rw [List.flatMap_append, List.flatMap_append, items_call]; exact codeOf_block hB hp hc w h1
  have c2 : CodeOf ((B ++ Y).flatMap callItems) ((gapCode []).append (c.append A')) := by
    rw [List.flatMap_append]; exact codeOf_block hB hp hc [] h2
  rw [toVec_codeOf L hQ cfg _ _ hE c1, toVec_codeOf L hQ cfg _ _ hE' c2]
  congr 1
  rw [append_acts, append_acts, append_acts, append_acts, gapCode_acts, gapCode_acts, vec_gap, vec_gap, top_state _ w hw,
    top_state _ [] (by simp), vecActs_append, vecActs_append cfg _ (A'.acts L cfg), whole_state _ hw', h3]

/-! ## Breaks -/

theorem break_same (d : Nat) (b : Bool) : breakCalls d d b = [if b then .line else .push] := by
  cases b <;> simp [breakCalls]

theorem net_replicate (n : Nat) (b : Bool) :
    net (List.replicate n (WsCall.unindent :: (if b then [.line] else []))).flatten = -(n : Int) := by
  induction n with
  | zero => rfl
  | succ n ih =>
    rw [List.replicate_succ, List.flatten_cons, net_append, ih]
    cases b <;> simp [net] <;> omega

theorem break_net (old new : Nat) (h : new ≤ old + 1) (b : Bool) : net (breakCalls old new b) = (new : Int) - old := by
  unfold breakCalls
  by_cases h1 : old < new
  · rw [if_pos h1]
    have : (new : Int) - old = 1 := by omega
    rw [this]
    cases b <;> simp [net]
  · rw [if_neg h1]
    by_cases h2 : old = new
    · rw [if_pos h2]
      cases b <;> simp [net, h2]
    · rw [if_neg h2, net_replicate]
      omega

theorem break_since (old new : Nat) (h : old ≠ new) (b : Bool) :
    (breakCalls old new b).any WsCall.isInd = true ∧ sinceInd (breakCalls old new b) = if b then [.line] else [] := by
  unfold breakCalls
  by_cases h1 : old < new
  · rw [if_pos h1]
    cases b <;> simp [WsCall.isInd, sinceInd]
  · rw [if_neg h1, if_neg h]
    obtain ⟨n, hn⟩ : ∃ n, old - new = n + 1 := ⟨old - new - 1, by omega⟩
    rw [hn, List.replicate_succ', List.flatten_append, List.flatten_singleton]
    constructor
    · rw [List.any_append]
      cases b <;> simp [WsCall.isInd]
    · rw [sinceInd_append]
      cases b <;> simp [WsCall.isInd, sinceInd]

theorem break_last (old new : Nat) (b : Bool) (w : List WsCall) : gapSpaces (w ++ breakCalls old new b) = 0 := by
  have : ∃ r c, breakCalls old new b = r ++ [c] ∧ c ≠ WsCall.space := by
    unfold breakCalls
    by_cases h1 : old < new
    · rw [if_pos h1]
      cases b
      · exact ⟨[], _, rfl, by simp⟩
      · exact ⟨[.indent], .line, rfl, by simp⟩
    · rw [if_neg h1]
      by_cases h2 : old = new
      · rw [if_pos h2]
        cases b <;> exact ⟨[], _, rfl, by simp⟩
      · rw [if_neg h2]
        obtain ⟨n, hn⟩ : ∃ n, old - new = n + 1 := ⟨old - new - 1, by omega⟩
        rw [hn, List.replicate_succ', List.flatten_append, List.flatten_singleton]
        cases b
        · exact ⟨_, .unindent, rfl, by simp⟩
        · exact ⟨(List.replicate n (WsCall.unindent :: [WsCall.line])).flatten ++ [.unindent], .line, by simp, by simp⟩
  obtain ⟨r, c, h, hc⟩ := this
  rw [gapSpaces, h, ← List.append_assoc, List.getLast?_concat, if_neg]
  simpa using hc

theorem gapBreaks_eq (w : List WsCall) (a : Bool) (h : .line ∈ sinceInd w ↔ a = true)
    (h' : a = false → .push ∈ sinceInd w ∨ net w ≠ 0) : gapBreaks w = if a then 2 else 1 := by
  unfold gapBreaks
  cases a
  · rw [if_neg (by simp [h]), if_pos (h' rfl)]
    rfl
  · rw [if_pos (h.2 rfl)]
    rfl

/-- Breaks that look the same. -/
theorem gapEq_break (w : List WsCall) (dp dq dl : Nat) (h1 : dl ≤ dp + 1) (h2 : dl ≤ dq + 1) (hn : net w = (dp : Int) - dq)
    (b b' : Bool) (hb : dp = dl → (b' = true ↔ (.line ∈ sinceInd w ∨ b = true)))
    (hd : dp ≠ dl → b' = b ∧ dq ≠ dl) :
    GapEq (w ++ breakCalls dp dl b) (breakCalls dq dl b') := by
  have e1 : net (w ++ breakCalls dp dl b) = (dl : Int) - dq := by rw [net_append, hn, break_net _ _ h1]; omega
  have e2 : net (breakCalls dq dl b') = (dl : Int) - dq := break_net _ _ h2 _
  refine ⟨?_, e1.trans e2.symm, by
    rw [break_last]
    exact (break_last dq dl b' []).symm⟩
  have r : gapBreaks (breakCalls dq dl b') = if b' then 2 else 1 := by
    refine gapBreaks_eq _ _ ?_ (fun h => ?_)
    · by_cases hq : dq = dl
      · subst hq
        rw [break_same]
        cases b' <;> simp [sinceInd, WsCall.isInd]
      · rw [(break_since _ _ hq _).2]
        cases b' <;> simp
    · by_cases hq : dq = dl
      · subst hq
        subst h
        rw [break_same]
        simp [sinceInd, WsCall.isInd]
      · right
        rw [e2]
        omega
  rw [r]
  refine gapBreaks_eq _ _ ?_ (fun h => ?_)
  · by_cases hp : dp = dl
    · rw [hb hp]
      subst hp
      rw [break_same, sinceInd_append]
      cases b <;> simp [WsCall.isInd]
    · rw [sinceInd_append, (break_since _ _ hp _).1, if_pos rfl, (break_since _ _ hp _).2, (hd hp).1]
      cases b <;> simp
  · by_cases hp : dp = dl
    · have : b = false := by
        cases b
        · rfl
        · have := (hb hp).2 (.inr rfl)
          rw [h] at this
          cases this
      subst this
      subst hp
      rw [break_same, sinceInd_append]
      simp [WsCall.isInd]
    · right
      rw [e1]
      have := (hd hp).2
      omega

/-! ## Levels -/

/-- Lines above that give the same levels. -/
def Same (X Y : List Nat) : Prop := ∀ c, enclosing c X = enclosing c Y

theorem Same.cons {X Y : List Nat} (h : Same X Y) (p : Nat) : Same (p :: X) (p :: Y) := by
  intro c
  rw [enclosing, enclosing, h p, h c]

theorem same_twice (p : Nat) (X : List Nat) : Same (p :: p :: X) (p :: X) := by
  intro c
  by_cases h : p < c
  · rw [enclosing_in _ _ _ h, enclosing_in _ _ _ h, enclosing_same]
  · rw [enclosing, if_neg h]

theorem Same.trans {X Y Z : List Nat} (h : Same X Y) (h' : Same Y Z) : Same X Z := fun c => (h c).trans (h' c)

theorem depth_same (p : Nat) (X : List Nat) : depth p (p :: X) = depth p X := by
  rw [depth, enclosing_same, depth]

theorem depth_of_same {X Y : List Nat} (h : Same X Y) (c : Nat) : depth c X = depth c Y := by
  rw [depth, h c, depth]

theorem depth_moves {c p : Nat} {past : List Nat} (h : Legal c p past) (hc : c ≠ p) :
    depth p past ≠ depth c (p :: past) := by
  unfold depth
  rcases h with h | h | h
  · rw [enclosing_in _ _ _ h]
    simp
  · exact absurd h hc
  · have := enclosing_lt p past c h
    rw [enclosing_out _ _ _ this]
    have hlt : ((enclosing p past).dropWhile (fun x => decide (c ≤ x))).length < (enclosing p past).length := by
      cases he : enclosing p past with
      | nil => rw [he] at h; cases h
      | cons x r =>
        have hx : c ≤ x := by
          have hs := enclosing_sorted p past
          rw [he] at hs h
          rcases List.mem_cons.1 h with rfl | h
          · exact Nat.le_refl _
          · exact Nat.le_of_lt ((List.pairwise_cons.1 hs).1 c h)
        rw [List.dropWhile_cons, if_pos (by simpa using hx)]
        have := (List.dropWhile_sublist (l := r) (fun x => decide (c ≤ x))).length_le
        simp only [List.length_cons]
        omega
    omega

/-! ## Taking out -/

/-- A slot that is a block, or nothing. -/
def SlotMay (L : Lang ι) (cfg : Config) (void : (Cur → Node E) → Bool) (C : (Cur → Node E) → List (Call ι)) (s : Slot E) : Prop :=
  if s.void void then slotCalls C s = [] else Template.Block L cfg (slotCalls C s)

theorem net_spaces {w : List WsCall} (hw : ∀ c ∈ w, c = .space) : net w = 0 := by
  have h1 : w.count .indent = 0 := List.count_eq_zero.2 (fun h => by cases hw _ h)
  have h2 : w.count .unindent = 0 := List.count_eq_zero.2 (fun h => by cases hw _ h)
  rw [net, h1, h2]
  rfl

theorem gapEq_spaces (w : List WsCall) (hw : ∀ c ∈ w, c = .space) (g : Nat) (hg : w = [] ↔ g = 0) :
    GapEq w (if g = 0 then [] else [.space]) := by
  have hs : w = List.replicate w.length .space := List.eq_replicate_iff.2 ⟨rfl, hw⟩
  have hi : sinceInd w = w := by
    have := sinceInd_append [] w
    rw [List.nil_append, if_neg] at this
    · exact this
    · rw [List.any_eq_true]
      rintro ⟨c, hc, h⟩
      rw [hw c hc] at h
      cases h
  have hn : net w = 0 := net_spaces hw
  refine ⟨?_, ?_, ?_⟩
  · have h1 : WsCall.line ∉ w := fun h => by cases hw _ h
    have h2 : WsCall.push ∉ w := fun h => by cases hw _ h
    unfold gapBreaks
    rw [hi, if_neg h1, if_neg (by simp [h2, hn])]
    by_cases hg : g = 0 <;> simp [hg, sinceInd, net, WsCall.isInd]
  · rw [hn]
    by_cases hg : g = 0 <;> simp [hg, net]
  · unfold gapSpaces
    by_cases h0 : g = 0
    · rw [hg.2 h0, if_pos h0]
    · rw [if_neg h0]
      obtain ⟨r, c, rfl⟩ := (List.eq_nil_or_concat w).resolve_left (fun h => h0 (hg.1 h))
      rw [List.concat_eq_append, List.getLast?_concat, hw c (by simp)]
      rfl

theorem alike_rest {L : Lang ι} {cfg : Config} {void : (Cur → Node E) → Bool} {C : (Cur → Node E) → List (Call ι)}
    {k : Nat} (r : List (Nat × Slot E)) (hr : ∀ p ∈ r, SlotMay L cfg void C p.2) (T T' : List (Call ι))
    (hT : ∀ w : List WsCall, (∀ c ∈ w, c = .space) → Alike L cfg k (w.map WsCall.call ++ T) T') :
    ∀ (w : List WsCall) (g : Nat), (∀ c ∈ w, c = .space) → (w = [] ↔ g = 0) →
      Alike L cfg k (w.map WsCall.call ++ (restCalls C r ++ T)) (restCalls C (leftRest void g r) ++ T') := by
  induction r with
  | nil => intro w g hw _; exact hT w hw
  | cons p r ih =>
    obtain ⟨n, s⟩ := p
    intro w g hw hg
    have ih := ih (fun p hp => hr p (by simp [hp]))
    have hs : SlotMay L cfg void C s := hr (n, s) (by simp)
    have hw' : ∀ c ∈ w ++ (if n = 0 then [] else [WsCall.space]), c = .space := by
      intro c hc
      rcases List.mem_append.1 hc with hc | hc
      · exact hw c hc
      · by_cases hn : n = 0
        · simp [hn] at hc
        · simpa [hn] using hc
    have hg' : w ++ (if n = 0 then [] else [WsCall.space]) = [] ↔ g + n = 0 := by
      by_cases hn : n = 0
      · simp [hn, hg]
      · simp [hn]
    have e : w.map (WsCall.call (ι := ι)) ++ (restCalls C ((n, s) :: r) ++ T) =
        (w ++ (if n = 0 then [] else [WsCall.space])).map WsCall.call ++ (slotCalls C s ++ (restCalls C r ++ T)) := by
      unfold restCalls
      rw [List.flatMap_cons]
      by_cases hn : n = 0 <;> simp [hn, WsCall.call]
    rw [e, leftRest]
    unfold SlotMay at hs
    by_cases hv : s.void void = true
    · rw [if_pos hv] at hs ⊢
      rw [hs]
      exact ih _ _ hw' hg'
    · rw [if_neg hv] at hs ⊢
      have e' : restCalls C ((g + n, s) :: leftRest void 0 r) ++ T' =
          (if g + n = 0 then [] else [WsCall.space]).map WsCall.call ++ (slotCalls C s ++ (restCalls C (leftRest void 0 r) ++ T')) := by
        unfold restCalls
        rw [List.flatMap_cons]
        by_cases hn : g + n = 0
        · simp [hn]
        · simp only [hn, if_false, List.map_cons, List.map_nil, WsCall.call, List.append_assoc]
      rw [e']
      exact .next k (by rw [net_spaces hw']; exact Int.add_zero _) (gapEq_spaces _ hw' _ hg') hs (ih [] 0 (by simp) (by simp))

/-- A line of which nothing is left. -/
theorem void_rest {L : Lang ι} {cfg : Config} {void : (Cur → Node E) → Bool} {C : (Cur → Node E) → List (Call ι)}
    (r : List (Nat × Slot E)) (hr : ∀ p ∈ r, SlotMay L cfg void C p.2) (hv : ∀ p ∈ r, p.2.void void = true) :
    ∃ w : List WsCall, (∀ c ∈ w, c = .space) ∧ restCalls C r = w.map WsCall.call := by
  induction r with
  | nil => exact ⟨[], by simp, rfl⟩
  | cons p r ih =>
    obtain ⟨n, s⟩ := p
    obtain ⟨w, h1, h2⟩ := ih (fun p hp => hr p (by simp [hp])) (fun p hp => hv p (by simp [hp]))
    have hs : SlotMay L cfg void C s := hr (n, s) (by simp)
    unfold SlotMay at hs
    rw [if_pos (hv (n, s) (by simp))] at hs
    refine ⟨(if n = 0 then [] else [WsCall.space]) ++ w, ?_, ?_⟩
    · intro c hc
      rcases List.mem_append.1 hc with hc | hc
      · by_cases hn : n = 0
        · simp [hn] at hc
        · simpa [hn] using hc
      · exact h1 c hc
    · have : restCalls C ((n, s) :: r) = ((if n = 0 then [] else [.space]) ++ slotCalls C s) ++ restCalls C r := rfl
      rw [this, hs, h2]
      by_cases hn : n = 0 <;> simp [hn, WsCall.call]

theorem void_row {L : Lang ι} {cfg : Config} {void : (Cur → Node E) → Bool} {C : (Cur → Node E) → List (Call ι)}
    (l : Row E) (hs : ∀ s ∈ l.slots, SlotMay L cfg void C s) (hv : l.void void = true) :
    slotCalls C l.first = [] ∧ ∃ w : List WsCall, (∀ c ∈ w, c = .space) ∧ restCalls C l.rest = w.map WsCall.call := by
  have hv' : ∀ s ∈ l.slots, s.void void = true := List.all_eq_true.1 hv
  have hm : ∀ p ∈ l.rest, p.2 ∈ l.slots := fun p hp => by
    simp only [Row.slots, List.mem_cons, List.mem_map]; exact .inr ⟨p, hp, rfl⟩
  refine ⟨?_, void_rest l.rest (fun p hp => hs _ (hm p hp)) (fun p hp => hv' _ (hm p hp))⟩
  have := hs l.first (by simp [Row.slots])
  unfold SlotMay at this
  rwa [if_pos (hv' _ (by simp [Row.slots]))] at this

/-- What is called below lines, when nothing is left of them. -/
theorem void_tail {L : Lang ι} {cfg : Config} {void : (Cur → Node E) → Bool} {C : (Cur → Node E) → List (Call ι)}
    (ls : List (Row E)) (hs : ∀ l ∈ ls, ∀ s ∈ l.slots, SlotMay L cfg void C s) (hn : nextColumn void ls = none) :
    ∀ p past, ∃ w : List WsCall, tailCalls C p past ls = w.map WsCall.call ∧ net w = -(depth p past : Int) := by
  induction ls with
  | nil =>
    intro p past
    refine ⟨_, rfl, ?_⟩
    have := net_replicate (depth p past) false
    simpa using this
  | cons l ls ih =>
    intro p past
    have hv : l.void void = true := by
      cases h : l.void void with
      | true => rfl
      | false => rw [nextColumn, h] at hn; cases hn
    rw [nextColumn, if_pos hv] at hn
    obtain ⟨w, hw, hnw⟩ := ih (fun x hx => hs x (by simp [hx])) hn l.column (p :: past)
    obtain ⟨h1, w', hsp, h2⟩ := void_row l (hs l (by simp)) hv
    refine ⟨breakCalls (depth p past) (depth l.column (p :: past)) (decide (0 < l.above)) ++ (w' ++ w), ?_, ?_⟩
    · rw [tailCalls, h1, h2, hw]
      simp
    · rw [net_append, net_append, hnw, break_net _ _ (depth_next _ _ _), net_spaces hsp]
      omega

theorem left_none {void : (Cur → Node E) → Bool} (ls : List (Row E)) (hn : nextColumn void ls = none) :
    ∀ prev b, leftRows void prev b ls = [] := by
  induction ls with
  | nil => intro _ _; rfl
  | cons l ls ih =>
    intro prev b
    have hv : l.void void = true := by
      cases h : l.void void with
      | true => rfl
      | false => rw [nextColumn, h] at hn; cases hn
    rw [nextColumn, if_pos hv] at hn
    rw [leftRows, if_pos hv, ih hn]

theorem alike_rows {L : Lang ι} {cfg : Config} {void : (Cur → Node E) → Bool} {C : (Cur → Node E) → List (Call ι)}
    (ls : List (Row E)) (hs : ∀ l ∈ ls, ∀ s ∈ l.slots, SlotMay L cfg void C s) :
    ∀ (p : Nat) (past : List Nat) (q : Nat) (past' : List Nat) (b : Nat) (w : List WsCall),
      Template.Offside (p :: past) ls → Tidy void p ls →
      ((p = q ∧ Same (p :: past) (q :: past')) ∨ (nextColumn void ls = some p ∧ Same (p :: past) (p :: q :: past')) ∨
        nextColumn void ls = none) →
      net w = (depth p past : Int) - depth q past' → (.line ∈ sinceInd w ↔ 0 < b) →
      Alike L cfg (depth q past') (w.map WsCall.call ++ tailCalls C p past ls) (tailCalls C q past' (leftRows void (some p) b ls)) := by
  induction ls with
  | nil =>
    intro p past q past' b w _ _ _ hnet _
    rw [tailCalls, ← List.map_append]
    refine .done _ _ ?_
    have := net_replicate (depth p past) false
    simp only [Bool.false_eq_true, if_false, List.flatten_replicate_singleton] at this
    rw [net_append, hnet, this]
    omega
  | cons l ls ih =>
    intro p past q past' b w ho ht hi hnet hline
    obtain ⟨ho1, ho2⟩ := ho
    obtain ⟨ht1, ht2⟩ := ht
    have ih := ih (fun x hx => hs x (by simp [hx]))
    by_cases hno : nextColumn void (l :: ls) = none
    · obtain ⟨w', hw', hnw⟩ := void_tail (l :: ls) hs hno p past
      rw [hw', left_none _ hno, ← List.map_append]
      refine .done _ _ ?_
      rw [net_append, hnet, hnw]
      omega
    have hi : (p = q ∧ Same (p :: past) (q :: past')) ∨
      (nextColumn void (l :: ls) = some p ∧ Same (p :: past) (p :: q :: past')) := by
      rcases hi with hi | hi | hi
      · exact .inl hi
      · exact .inr hi
      · exact absurd hi hno
    have hd1 : depth l.column (p :: past) ≤ depth p past + 1 := depth_next _ _ _
    by_cases hv : l.void void = true
    · -- nothing is left of the line
      rw [if_pos hv] at ht1
      obtain ⟨h1, w', hsp, h2⟩ := void_row l (hs l (by simp)) hv
      rw [nextColumn, if_pos hv] at hno hi
      have e : w.map (WsCall.call (ι := ι)) ++ tailCalls C p past (l :: ls) =
          (w ++ breakCalls (depth p past) (depth l.column (p :: past)) (decide (0 < l.above)) ++ w').map WsCall.call ++
            tailCalls C l.column (p :: past) ls := by
        rw [tailCalls, h1, h2]
        simp
      rw [e, leftRows, if_pos hv]
      have hnsp : net w' = 0 := net_spaces hsp
      have hany : w'.any WsCall.isInd = false := by
        rw [List.any_eq_false]
        intro c hc
        rw [hsp c hc]
        simp [WsCall.isInd]
      have hlsp : WsCall.line ∉ w' := fun h => by cases hsp _ h
      refine ih l.column (p :: past) q past' _ _ ho2 ht2 ?_ ?_ ?_
      · rcases hi with ⟨rfl, hsame⟩ | ⟨hnx, hsame⟩
        · rcases ht1 with hc | hc | hc
          · rw [hc]
            exact .inl ⟨rfl, (same_twice _ _).trans hsame⟩
          · exact .inr (.inl ⟨hc, hsame.cons _⟩)
          · exact absurd hc hno
        · have hc : l.column = p := by
            rcases ht1 with hc | hc | hc
            · exact hc
            · rw [hnx] at hc; exact (Option.some.inj hc).symm
            · exact absurd hc hno
          rw [hc]
          exact .inr (.inl ⟨hnx, (same_twice _ _).trans hsame⟩)
      · rw [net_append, net_append, hnsp, hnet, break_net _ _ hd1]
        omega
      · rw [sinceInd_append, hany, if_neg (by simp), List.mem_append]
        by_cases hc : l.column = p
        · rw [hc, depth_same, break_same, sinceInd_append, if_pos rfl]
          by_cases ha : 0 < l.above
          · have : 0 < b + l.above := by omega
            simp [ha, WsCall.isInd, this]
          · have : l.above = 0 := by omega
            simp [this, WsCall.isInd, hlsp, hline]
        · have hm := depth_moves ho1 hc
          rw [sinceInd_append, (break_since _ _ hm _).1, if_pos rfl, (break_since _ _ hm _).2,
            if_neg (fun h => hc (Option.some.inj h).symm)]
          by_cases ha : 0 < l.above <;> simp [ha, hlsp]
    · -- the line stays
      have hcol : nextColumn void (l :: ls) = some l.column := by rw [nextColumn, if_neg hv]
      rw [if_neg hv] at ht1
      rw [hcol] at hi
      rw [tailCalls, leftRows, if_neg hv, tailCalls]
      dsimp only
      have hfirst : Template.Block L cfg (slotCalls C l.first) := by
        have := hs l (by simp) l.first (by simp [Row.slots])
        unfold SlotMay at this
        rwa [if_neg (by simp [ht1])] at this
      have hsame' : Same (l.column :: p :: past) (l.column :: q :: past') := by
        rcases hi with ⟨rfl, hsame⟩ | ⟨hnx, hsame⟩
        · exact hsame.cons _
        · have hc : l.column = p := Option.some.inj hnx
          rw [hc]
          exact (same_twice _ _).trans hsame
      have hdl : depth l.column (p :: past) = depth l.column (q :: past') := by
        rw [← depth_same, depth_of_same hsame', depth_same]
      have hd2 : depth l.column (q :: past') ≤ depth q past' + 1 := depth_next _ _ _
      rw [← List.append_assoc, ← List.map_append, hdl]
      refine .next (depth l.column (q :: past')) (by
        rw [net_append, hnet, break_net _ _ (by omega)]
        omega) (gapEq_break w (depth p past) (depth q past') (depth l.column (q :: past')) (by omega) hd2 hnet _ _ ?_ ?_)
        hfirst ?_
      · intro heq
        have hc : l.column = p := by
          by_contra hc
          have := depth_moves ho1 hc
          omega
        rw [if_pos (by rw [hc]), hline]
        simp only [decide_eq_true_eq]
        omega
      · intro hne
        have hc : l.column ≠ p := by
          intro hc
          rw [← hdl, hc, depth_same] at hne
          exact hne rfl
        refine ⟨by rw [if_neg (fun h => hc (Option.some.inj h).symm)], ?_⟩
        rcases hi with ⟨rfl, hsame⟩ | ⟨hnx, hsame⟩
        · have : depth p past = depth p past' := by
            rw [← depth_same, depth_of_same hsame, depth_same]
          omega
        · exact absurd (Option.some.inj hnx) hc
      · have := alike_rest (L := L) (cfg := cfg) (void := void) (C := C) l.rest (fun p hp => hs l (by simp) _ (by
            simp only [Row.slots, List.mem_cons, List.mem_map]; exact .inr ⟨p, hp, rfl⟩))
          (tailCalls C l.column (p :: past) ls) (tailCalls C l.column (q :: past') (leftRows void (some l.column) 0 ls))
          (fun w' hsp => ih l.column (p :: past) l.column (q :: past') 0 w' ho2 ht2 (.inl ⟨rfl, hsame'⟩) (by
            rw [net_spaces hsp, hdl]
            omega) (by
            have : WsCall.line ∉ sinceInd w' := fun h => by
              have : WsCall.line ∈ w' := by
                unfold sinceInd at h
                rw [List.mem_reverse] at h
                have := (List.takeWhile_sublist (fun c : WsCall => !c.isInd) (l := w'.reverse)).subset h
                simpa using this
              cases hsp _ this
            simp [this])) [] 0 (by simp) (by simp)
        exact this

/-! ## The end -/

/-- The end is visible. -/
def Inky (cs : List (Call ι)) : Prop := ∃ r x, cs.flatMap callItems = r ++ [x] ∧ isWs x = false

theorem Inky.append {b : List (Call ι)} (h : Inky b) (a : List (Call ι)) : Inky (a ++ b) := by
  obtain ⟨r, x, e, hx⟩ := h
  exact ⟨a.flatMap callItems ++ r, x, by rw [List.flatMap_append, e, List.append_assoc], hx⟩

theorem inky_rest {L : Lang ι} {cfg : Config} {void : (Cur → Node E) → Bool} {C : (Cur → Node E) → List (Call ι)}
    (r : List (Nat × Slot E)) : ∀ (s : Slot E), (∀ x ∈ s :: r.map (·.2), SlotMay L cfg void C x) →
    (∀ x, (s :: r.map (·.2)).getLast? = some x → x.void void = false) → Inky (slotCalls C s ++ restCalls C r) := by
  induction r with
  | nil =>
    intro s hs hl
    have h1 := hs s (by simp)
    unfold SlotMay at h1
    rw [if_neg (by rw [hl s rfl]; simp)] at h1
    obtain ⟨r, x, e, hx⟩ := h1.last
    refine ⟨r, x, ?_, hx⟩
    rw [show restCalls C [] = [] from rfl, List.append_nil, e]
  | cons p r ih =>
    obtain ⟨n, t⟩ := p
    intro s hs hl
    have := ih t (fun x hx => hs x (List.mem_cons_of_mem _ hx)) (fun x hx => hl x (by
      rw [List.map_cons, List.getLast?_cons_cons]; exact hx))
    have e : restCalls C ((n, t) :: r) = (if n = 0 then [] else [.space]) ++ (slotCalls C t ++ restCalls C r) := by
      unfold restCalls
      rw [List.flatMap_cons, List.append_assoc]
    rw [e]
    exact (this.append _).append _

theorem inky_tail {L : Lang ι} {cfg : Config} {void : (Cur → Node E) → Bool} {C : (Cur → Node E) → List (Call ι)}
    (ls : List (Row E)) : ∀ (l : Row E) (past : List Nat), (∀ x ∈ l :: ls, ∀ s ∈ x.slots, SlotMay L cfg void C s) →
    Inked void (l :: ls) → lastLevel (l.column :: past) ls = 0 →
    Inky (slotCalls C l.first ++ (restCalls C l.rest ++ tailCalls C l.column past ls)) := by
  induction ls with
  | nil =>
    intro l past hs hi hl
    have := inky_rest (L := L) (cfg := cfg) (void := void) (C := C) l.rest l.first (hs l (by simp)) (hi l rfl)
    rw [tailCalls, show depth l.column past = 0 from hl]
    simpa using this
  | cons m ls ih =>
    intro l past hs hi hl
    have := ih m (l.column :: past) (fun x hx => hs x (by simp [hx])) (fun x hx => hi x (by
      rw [List.getLast?_cons_cons]; exact hx)) hl
    rw [tailCalls]
    exact ((this.append _).append _).append _

/-! ## Templates -/

theorem depth_top (c : Nat) (past : List Nat) (h : ∀ x ∈ past, x = c) : depth c past = 0 := by
  induction past with
  | nil => rfl
  | cons p past ih =>
    rw [h p (by simp), depth_same, ih (fun x hx => h x (by simp [hx]))]

theorem same_top (c : Nat) (past : List Nat) (h : ∀ x ∈ past, x = c) : Same (c :: past) [c] := by
  induction past with
  | nil => exact fun _ => rfl
  | cons p past ih =>
    rw [h p (by simp)]
    exact (same_twice _ _).trans (ih (fun x hx => h x (by simp [hx])))

/-- Calls for lines at the top of which nothing is left. -/
theorem top_calls {L : Lang ι} {cfg : Config} {void : (Cur → Node E) → Bool} {C : (Cur → Node E) → List (Call ι)}
    (c : Nat) (top : List (Row E)) (hs : ∀ x ∈ top, ∀ s ∈ x.slots, SlotMay L cfg void C s) (ht : Top void c top) (more : List (Row E)) :
    ∀ past : List Nat, (∀ x ∈ past, x = c) → ∃ (w : List WsCall) (past' : List Nat), (∀ x ∈ w, x = .push ∨ x = .line) ∧
      (∀ x ∈ past', x = c) ∧ tailCalls C c past (top ++ more) = w.map WsCall.call ++ tailCalls C c past' more ∧
      (Template.Offside (c :: past) (top ++ more) → Template.Offside (c :: past') more) := by
  induction top with
  | nil => intro past hp; exact ⟨[], past, by simp, hp, rfl, id⟩
  | cons t top ih =>
    intro past hp
    obtain ⟨hv, hr, hc⟩ := ht t (by simp)
    have hp' : ∀ x ∈ c :: past, x = c := by
      intro x hx
      rcases List.mem_cons.1 hx with rfl | hx
      · rfl
      · exact hp x hx
    obtain ⟨w, past', h1, h2, h3, h4⟩ := ih (fun x hx => hs x (by simp [hx])) (fun x hx => ht x (by simp [hx])) (c :: past) hp'
    obtain ⟨hf, -⟩ := void_row t (hs t (by simp)) hv
    refine ⟨(if 0 < t.above then .line else .push) :: w, past', ?_, h2, ?_, fun ho => h4 (by
      obtain ⟨-, ho⟩ := ho
      rwa [hc] at ho)⟩
    · intro x hx
      rcases List.mem_cons.1 hx with rfl | hx
      · by_cases ha : 0 < t.above <;> simp [ha]
      · exact h1 x hx
    · rw [List.cons_append, tailCalls, hc, depth_top c past hp, depth_top c _ hp', break_same, hf, hr, h3]
      by_cases ha : 0 < t.above <;> simp [ha, restCalls]

theorem left_top {void : (Cur → Node E) → Bool} (top : List (Row E)) (hv : ∀ x ∈ top, x.void void = true) (l : Row E)
    (hl : l.void void = false) (ls : List (Row E)) : ∀ prev b, ∃ a, leftRows void prev b (top ++ l :: ls) =
      ⟨a, l.column, l.first, leftRest void 0 l.rest⟩ :: leftRows void (some l.column) 0 ls := by
  induction top with
  | nil =>
    intro prev b
    exact ⟨_, by rw [List.nil_append, leftRows, if_neg (by simp [hl])]⟩
  | cons t top ih =>
    intro prev b
    rw [List.cons_append, leftRows, if_pos (hv t (by simp))]
    exact ih (fun x hx => hv x (by simp [hx])) _ _

theorem left_rest_mem {void : (Cur → Node E) → Bool} (r : List (Nat × Slot E)) : ∀ g, ∀ p ∈ leftRest void g r,
    p.2.void void = false ∧ ∃ q ∈ r, q.2 = p.2 := by
  induction r with
  | nil => intro g p hp; cases hp
  | cons x r ih =>
    obtain ⟨n, s⟩ := x
    intro g p hp
    rw [leftRest] at hp
    split at hp
    · obtain ⟨h1, q, hq, h2⟩ := ih _ p hp
      exact ⟨h1, q, by simp [hq], h2⟩
    · rename_i hv
      rcases List.mem_cons.1 hp with rfl | hp
      · exact ⟨by simpa using hv, (n, s), by simp, rfl⟩
      · obtain ⟨h1, q, hq, h2⟩ := ih _ p hp
        exact ⟨h1, q, by simp [hq], h2⟩

theorem left_rows_mem {void : (Cur → Node E) → Bool} (ls : List (Row E)) : ∀ (p b : Nat), Tidy void p ls →
    ∀ x ∈ leftRows void (some p) b ls, ∀ s ∈ x.slots, s.void void = false ∧ ∃ y ∈ ls, s ∈ y.slots := by
  induction ls with
  | nil => intro p b _ x hx; cases hx
  | cons l ls ih =>
    intro p b ht x hx s hs
    obtain ⟨ht1, ht2⟩ := ht
    rw [leftRows] at hx
    split at hx
    · obtain ⟨h1, y, hy, h2⟩ := ih _ _ ht2 x hx s hs
      exact ⟨h1, y, by simp [hy], h2⟩
    · rename_i hv
      rw [if_neg hv] at ht1
      rcases List.mem_cons.1 hx with rfl | hx
      · rcases List.mem_cons.1 hs with rfl | hs
        · exact ⟨ht1, l, by simp, by simp [Row.slots]⟩
        · obtain ⟨q, hq, rfl⟩ := List.mem_map.1 hs
          obtain ⟨h1, q', hq', h2⟩ := left_rest_mem _ _ q hq
          refine ⟨h1, l, by simp, ?_⟩
          simp only [Row.slots, List.mem_cons, List.mem_map]
          exact .inr ⟨q', hq', h2⟩
      · obtain ⟨h1, y, hy, h2⟩ := ih _ _ ht2 x hx s hs
        exact ⟨h1, y, by simp [hy], h2⟩

/-- The calls with those of holes that write nothing left out. -/
def someCalls (void : (Cur → Node E) → Bool) (C : (Cur → Node E) → List (Call ι)) (n : Cur → Node E) : List (Call ι) :=
  if void n then [] else C n

section

variable {H : Host ι E Env} {ρ : Env} {L : Lang ι} {cfg : Config} {void : (Cur → Node E) → Bool}
  {C : (Cur → Node E) → List (Call ι)} {V : (Cur → Node E) → List Str} {s : Slot E}

theorem slotOr_fills (h : SlotOr H ρ L cfg void C V s) : SlotFills H ρ (someCalls void C) s := by
  cases s with
  | word s => exact h
  | hole w n =>
    have h : if void n then Fills H ρ n [] else Hole H ρ L cfg n (C n) (V n) := h
    show Fills H ρ n (someCalls void C n)
    unfold someCalls
    split at h
    · rename_i hv; rw [if_pos hv]; exact h
    · rename_i hv; rw [if_neg hv]; exact h.fills

theorem slotOr_in (h : SlotOr H ρ L cfg void C V s) (hv : s.void void = false) :
    SlotIn H ρ L cfg (someCalls void C) V s := by
  cases s with
  | word s => exact h
  | hole w n =>
    have hv : void n = false := hv
    have h : if void n then Fills H ρ n [] else Hole H ρ L cfg n (C n) (V n) := h
    show Hole H ρ L cfg n (someCalls void C n) (V n)
    unfold someCalls
    rw [hv] at h ⊢
    exact h

theorem slotOr_may (h : SlotOr H ρ L cfg void C V s) : SlotMay L cfg void (someCalls void C) s := by
  unfold SlotMay
  split
  · rename_i hv
    cases s with
    | word s => cases hv
    | hole w n =>
      have hv : void n = true := hv
      show someCalls void C n = []
      rw [someCalls, if_pos hv]
  · rename_i hv
    exact (slotIn_ok (slotOr_in h (by simpa using hv))).block

theorem slotOr_uniform (h : SlotOr H ρ L cfg void C V s) : Uniform L ((slotCalls (someCalls void C) s).flatMap callItems) := by
  by_cases hv : s.void void = true
  · have := slotOr_may h
    unfold SlotMay at this
    rw [if_pos hv] at this
    rw [this]
    exact .inr (fun i hi => by cases hi)
  · exact (slotIn_ok (slotOr_in h (by simpa using hv))).uniform

end

/-- The calls of lines, with slots that are blocks or nothing. -/
theorem void_calls (L : Lang ι) (hQ : HomQuote L) (cfg : Config)
    (void : (Cur → Node E) → Bool) (C : (Cur → Node E) → List (Call ι)) (V : (Cur → Node E) → List Str)
    (top : List (Row E)) (l : Row E) (ls : List (Row E))
    (h : ∀ x ∈ top ++ l :: ls, ∀ s ∈ x.slots, if s.void void then slotCalls C s = [] else SlotOk L cfg C V s)
    (ho : Template.Offside [] (top ++ l :: ls)) (htop : Top void l.column top) (hl : l.first.void void = false)
    (ht : Tidy void l.column ls) :
    ∃ (t : Row E) (ts : List (Row E)) (w : List WsCall) (B : List (Call ι)), top ++ l :: ls = t :: ts ∧ (∀ x ∈ w, x = WsCall.push ∨ x = .line) ∧
      allCalls C t ts = w.map WsCall.call ++ (slotCalls C l.first ++ B) ∧
      toVec L cfg (history (allCalls C t ts)).items =
        some (Template.outLines cfg V [] (leftRows void none 0 (top ++ l :: ls))) ∧
      Uniform L ((allCalls C t ts).flatMap callItems) ∧
      (top = [] → Inked void (l :: ls) → lastLevel [] (l :: ls) = 0 → Template.Block L cfg (allCalls C t ts)) := by
  have hlv : l.void void = false := by
    cases hx : l.void void with
    | false => rfl
    | true =>
      have := List.all_eq_true.1 hx l.first (by simp [Row.slots])
      rw [hl] at this
      cases this
  have hsok : ∀ x ∈ top ++ l :: ls, ∀ s ∈ x.slots, s.void void = false → SlotOk L cfg C V s := by
    intro x hx s hs hv
    have := h x hx s hs
    rwa [if_neg (by simp [hv])] at this
  have hmay : ∀ x ∈ top ++ l :: ls, ∀ s ∈ x.slots, SlotMay L cfg void C s := by
    intro x hx s hs
    unfold SlotMay
    split
    · rename_i hv
      have := h x hx s hs
      rwa [if_pos hv] at this
    · rename_i hv
      exact (hsok x hx s hs (by simpa using hv)).block
  have huni : ∀ x ∈ top ++ l :: ls, ∀ s ∈ x.slots, Uniform L ((slotCalls C s).flatMap callItems) := by
    intro x hx s hs
    by_cases hv : s.void void = true
    · have := h x hx s hs
      rw [if_pos hv] at this
      rw [this]
      exact .inr (fun i hi => by cases hi)
    · exact (hsok x hx s hs (by simpa using hv)).uniform
  obtain ⟨a, ha⟩ := left_top top (fun x hx => (htop x hx).1) l hlv ls none 0
  rw [ha]
  -- the calls
  have key : ∃ (w : List WsCall) (past : List Nat) (t : Row E) (ts : List (Row E)), top ++ l :: ls = t :: ts ∧
      (∀ x ∈ w, x = .push ∨ x = .line) ∧ (top = [] → w = [] ∧ past = []) ∧ (∀ x ∈ past, x = l.column) ∧
      Template.Offside (l.column :: past) ls ∧
      allCalls C t ts = w.map WsCall.call ++ (slotCalls C l.first ++
        (restCalls C l.rest ++ tailCalls C l.column past ls)) := by
    cases top with
    | nil => exact ⟨[], [], l, ls, rfl, by simp, fun _ => ⟨rfl, rfl⟩, by simp, ho, rfl⟩
    | cons t top =>
      obtain ⟨tv, tr, tc⟩ := htop t (by simp)
      obtain ⟨w, past', h1, h2, h3, h4⟩ := top_calls (L := L) (cfg := cfg) (void := void) (C := C) l.column top
        (fun x hx => hmay x (by simp [hx])) (fun x hx => htop x (by simp [hx])) (l :: ls) [] (by simp)
      obtain ⟨hf, -⟩ := void_row t (hmay t (by simp)) tv
      have ho' : Template.Offside [t.column] (top ++ l :: ls) := ho
      rw [tc] at ho'
      obtain ⟨-, ho'⟩ := h4 ho'
      have hp' : ∀ x ∈ l.column :: past', x = l.column := by
        intro x hx
        rcases List.mem_cons.1 hx with rfl | hx
        · rfl
        · exact h2 x hx
      refine ⟨w ++ [if 0 < l.above then .line else .push], l.column :: past', t, top ++ l :: ls, rfl, ?_, by simp, hp', ho', ?_⟩
      · intro x hx
        rcases List.mem_append.1 hx with hx | hx
        · exact h1 x hx
        · rw [List.mem_singleton.1 hx]
          by_cases ha : 0 < l.above <;> simp [ha]
      · rw [allCalls, hf, tr, tc, h3, tailCalls, depth_top _ _ h2, depth_top _ _ hp', break_same]
        by_cases ha : 0 < l.above <;> simp [ha, restCalls]
  obtain ⟨w, past, t, ts, et, hw, hw0, hpast, hoff, hcalls⟩ := key
  have hu : Uniform L ((allCalls C t ts).flatMap callItems) :=
    uniform_all L C t ts (fun x hx s hs => huni x (by rw [et]; exact hx) s hs)
  have hmayl : ∀ s ∈ l.slots, SlotMay L cfg void C s := hmay l (by simp)
  have hfirst : Template.Block L cfg (slotCalls C l.first) := by
    have := hmayl l.first (by simp [Row.slots])
    unfold SlotMay at this
    rwa [if_neg (by simp [hl])] at this
  -- the same with less
  have hok : ∀ x ∈ (⟨a, l.column, l.first, leftRest void 0 l.rest⟩ : Row E) :: leftRows void (some l.column) 0 ls,
      ∀ s ∈ x.slots, SlotOk L cfg C V s := by
    intro x hx s hs
    rcases List.mem_cons.1 hx with rfl | hx
    · rcases List.mem_cons.1 hs with rfl | hs
      · exact hsok l (by simp) _ (by simp [Row.slots]) hl
      · obtain ⟨q, hq, rfl⟩ := List.mem_map.1 hs
        obtain ⟨h1, q', hq', e⟩ := left_rest_mem _ _ q hq
        rw [← e] at h1 ⊢
        refine hsok l (by simp) _ ?_ h1
        simp only [Row.slots, List.mem_cons, List.mem_map]
        exact .inr ⟨q', hq', rfl⟩
    · obtain ⟨h1, y, hy, h2⟩ := left_rows_mem ls _ _ ht x hx s hs
      exact hsok y (by simp [hy]) _ h2 h1
  obtain ⟨v1, -⟩ := vec_template L hQ cfg C V ⟨a, l.column, l.first, leftRest void 0 l.rest⟩
    (leftRows void (some l.column) 0 ls) hok
  have hu' := uniform_all L C ⟨a, l.column, l.first, leftRest void 0 l.rest⟩
    (leftRows void (some l.column) 0 ls) (fun x hx s hs => (hok x hx s hs).uniform)
  have hal : Alike L cfg 0 (restCalls C l.rest ++ tailCalls C l.column past ls)
      (restCalls C (leftRest void 0 l.rest) ++
        tailCalls C l.column [] (leftRows void (some l.column) 0 ls)) := by
    have hrest : ∀ p ∈ l.rest, SlotMay L cfg void C p.2 := fun p hp => hmayl _ (by
      simp only [Row.slots, List.mem_cons, List.mem_map]; exact .inr ⟨p, hp, rfl⟩)
    have := alike_rest (L := L) (cfg := cfg) (void := void) (C := C) (k := 0) l.rest hrest
      (tailCalls C l.column past ls) (tailCalls C l.column [] (leftRows void (some l.column) 0 ls))
      (fun w' hsp => alike_rows ls (fun x hx => hmay x (by simp [hx])) l.column past l.column [] 0 w' hoff ht
        (.inl ⟨rfl, same_top _ _ hpast⟩) (by
          rw [net_spaces hsp, depth_top _ _ hpast]
          rfl) (by
          have : WsCall.line ∉ sinceInd w' := fun h => by
            have : WsCall.line ∈ w' := by
              unfold sinceInd at h
              rw [List.mem_reverse] at h
              have := (List.takeWhile_sublist (fun c : WsCall => !c.isInd) (l := w'.reverse)).subset h
              simpa using this
            cases hsp _ this
          simp [this])) [] 0 (by simp) (by simp)
    exact this
  have hu1 := hu
  rw [hcalls] at hu1
  have hvec := alike_vec L hQ cfg w hw hfirst hal hu1 hu'
  rw [← hcalls] at hvec
  refine ⟨t, ts, w, _, et, hw, hcalls, ?_, hu, fun htop0 hink hlev => ?_⟩
  · rw [hvec]
    exact v1
  · obtain ⟨rfl, rfl⟩ := hw0 htop0
    subst htop0
    rw [hcalls]
    have hinky := inky_tail (L := L) (cfg := cfg) (void := void) (C := C) ls l [] hmay hink hlev
    obtain ⟨A, A', c1, c2, c3, c4, c5⟩ := alike_code hal
    obtain ⟨c, hp, hc, hwh⟩ := hfirst.code
    have hA := codeOf_block hfirst hp hc [] c1
    have hends : Ends (seen (A.acts L cfg)) := c5 (fun r x hx => by
      obtain ⟨r', x', e, hx'⟩ := hinky
      rw [List.flatMap_append, hx, ← List.append_assoc] at e
      have := (List.append_inj' e rfl).2
      rw [List.cons.injEq] at this
      rw [this.1, hx'])
    refine ⟨?_, hinky, c.append A, by rw [append_plain, hp, c1.1]; rfl, ?_, ?_⟩
    · obtain ⟨x, r, e, hx⟩ := hfirst.first
      exact ⟨x, r ++ _, by rw [List.map_nil, List.nil_append, List.flatMap_append, e, List.cons_append], hx⟩
    · rw [letters_history, ← letters_norm]
      have := hA.2
      rw [List.map_nil, List.nil_append, List.flatMap_append]
      exact this
    · rw [append_acts, seen_append]
      have lv := (lev_whole hwh 0).append c4
      obtain ⟨s, r, hf, hsn⟩ := hwh.first
      refine ⟨⟨s, r ++ seen (A.acts L cfg), by rw [hf]; rfl, hsn⟩, ?_, ?_, ?_⟩
      · have := ends_block (A := []) hwh hends
        rcases this with h | h
        · rw [hf] at h; cases h
        · exact h
      · intro p hp
        have := lv.2 p hp
        simpa using this
      · have := lv.1
        simpa using this

theorem void_vec (H : Host ι E Env) (hv : ∀ ρ e, ∀ c ∈ H.value ρ e, ¬ EmptyCall c)
    (hs : ∀ ρ e, ∀ c ∈ H.scope ρ e, ¬ EmptyCall c) (ρ : Env) (L : Lang ι) (hQ : HomQuote L) (cfg : Config)
    (void : (Cur → Node E) → Bool) (C : (Cur → Node E) → List (Call ι)) (V : (Cur → Node E) → List Str)
    (top : List (Row E)) (l : Row E) (ls : List (Row E))
    (h : ∀ x ∈ top ++ l :: ls, ∀ s ∈ x.slots, SlotOr H ρ L cfg void C V s)
    (ho : Template.Offside [] (top ++ l :: ls)) (htop : Top void l.column top) (hl : l.first.void void = false)
    (ht : Tidy void l.column ls) (line : Nat) (ns : List (Node E)) (hn : flatten ns = placeRows line (top ++ l :: ls)) :
    ∃ r ss, Macro.quote none ns = .ok (r, ss) ∧ leave H ρ ss = ρ ∧
      toVec L cfg (history (runBlock H ρ ss)).items =
        some (Template.outLines cfg V [] (leftRows void none 0 (top ++ l :: ls))) ∧
      Uniform L ((runBlock H ρ ss).flatMap callItems) ∧
      (top = [] → Inked void (l :: ls) → lastLevel [] (l :: ls) = 0 → Template.Block L cfg (runBlock H ρ ss)) := by
  have h' : ∀ x ∈ top ++ l :: ls, ∀ s ∈ x.slots,
      if s.void void then slotCalls (someCalls void C) s = [] else SlotOk L cfg (someCalls void C) V s := by
    intro x hx s hs
    have := slotOr_may (h x hx s hs)
    unfold SlotMay at this
    split
    · rename_i hv
      rwa [if_pos hv] at this
    · rename_i hv
      exact slotIn_ok (slotOr_in (h x hx s hs) (by simpa using hv))
  obtain ⟨t, ts, w, B, et, -, -, v1, v2, v3⟩ := void_calls L hQ cfg void (someCalls void C) V top l ls h' ho htop hl ht
  rw [et] at h ho hn
  obtain ⟨r, ss, h1, h2, h3⟩ := template_run H hv hs ρ (someCalls void C) t ts
    (fun x hx s hs => slotOr_fills (h x hx s hs)) ho line ns hn
  exact ⟨r, ss, h1, h2, by rw [← cut_vec L hQ cfg v2 h3.symm]; exact v1, cut_uniform v2 h3.symm,
    fun k1 k2 k3 => cut_block (v3 k1 k2 k3) h3.symm⟩

end Genco.Macro
