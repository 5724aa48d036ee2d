import Verif.Proofs.Split
import Verif.Proofs.Parted
import Verif.Proofs.Erase
import Verif.Spec.Seam

/-!
# Streams cut in two

What is behind a cut is resolved on its own, in the frames that are open there.
-/

set_option autoImplicit false

namespace Genco

open Spec Tokens

variable {ι : Type}

/-- The items do not complete the short form of an evaluation begun before. -/
def Safe (B : List (Item ι)) : Prop :=
  (∀ r, B ≠ .closeEval :: r) ∧ ∀ s r, B ≠ .literal s :: .closeEval :: r

/-- What resolving a stream comes to, cut somewhere in its own frames. -/
def SeamAt (L : Lang ι) (cfg : Config) (A : List (Item ι)) (stack : List Frame) (lower : MState)
    (fr : List MFrame) : Prop :=
  (lower = [] → ∃ p st', st'.map Frame.m = fr ∧ bottomOk st' = true ∧
    (p.map actInd).sum = height [stack.map Frame.m] A ∧
    ∀ B, Safe B → res L cfg false stack (A ++ B) = pre p (res L cfg false st' B)) ∧
  (lower ≠ [] → ∃ p A', A'.length < A.length ∧ A'.foldlM markStep lower = some [fr] ∧
    height (stack.map Frame.m :: lower) A = height lower A' ∧
    ∀ B, Safe B → res L cfg true stack (A ++ B) = (p, some (A' ++ B)))

theorem sum_texts (l : List Str) : ((texts l).map actInd).sum = 0 := by
  induction l with
  | nil => rfl
  | cons s l ih => simpa [texts, actInd] using ih

theorem height_cons {s : List MFrame} {lower s' : MState} {i : Item ι} (r : List (Item ι))
    (hm : markStep (s :: lower) i = some s') :
    height (s :: lower) (i :: r) = (if lower = [] then indOf i else 0) + height s' r := by
  cases lower with
  | nil => rw [height.eq_def]; simp [hm]
  | cons l ls => rw [height.eq_def]; simp [hm]

theorem pre_eq (q p : List Act) (x : Option (List (Item ι))) : pre q (p, x) = (q ++ p, x) := rfl

theorem SeamAt.step {L : Lang ι} {cfg : Config} {i : Item ι} {A : List (Item ι)} {stack stack2 : List Frame}
    {lower : MState} {fr : List MFrame} {q : List Act}
    (hr : ∀ (e : Bool) (B : List (Item ι)), Safe B → e = !lower.isEmpty →
      res L cfg e stack (i :: (A ++ B)) = pre q (res L cfg e stack2 (A ++ B)))
    (hm : markStep (stack.map Frame.m :: lower) i = some (stack2.map Frame.m :: lower))
    (hq : lower = [] → (q.map actInd).sum = indOf i)
    (h : SeamAt L cfg A stack2 lower fr) : SeamAt L cfg (i :: A) stack lower fr := by
  refine ⟨?_, ?_⟩
  · rintro rfl
    obtain ⟨p, st', h1, h2, h3, h4⟩ := h.1 rfl
    refine ⟨q ++ p, st', h1, h2, ?_, ?_⟩
    · rw [List.map_append, List.sum_append, h3, hq rfl, height_cons A hm, if_pos rfl]
    · intro B hB
      rw [List.cons_append, hr false B hB rfl, h4 B hB, pre_pre]
  · intro hl
    obtain ⟨p, A', h1, h2, h3, h4⟩ := h.2 hl
    refine ⟨q ++ p, A', by simp only [List.length_cons]; omega, h2, ?_, ?_⟩
    · rw [← h3, height_cons A hm, if_neg hl, Int.zero_add]
    · intro B hB
      have he : true = !lower.isEmpty := by cases lower <;> simp_all
      rw [List.cons_append, hr true B hB he, h4 B hB, pre_eq]

theorem seam (L : Lang ι) (cfg : Config) : ∀ (n : Nat) (A : List (Item ι)), A.length ≤ n →
    ∀ (stack : List Frame) (lower : MState) (fr : List MFrame), bottomOk stack = true →
    A.foldlM markStep (stack.map Frame.m :: lower) = some [fr] → SeamAt L cfg A stack lower fr := by
  intro n
  induction n with
  | zero =>
    intro A hA stack lower fr hb h
    have : A = [] := by simpa using hA
    subst this
    have h : some (stack.map Frame.m :: lower) = some [fr] := h
    simp only [Option.some.injEq, List.cons.injEq] at h
    refine ⟨fun _ => ⟨[], stack, h.1, hb, rfl, fun B _ => rfl⟩, fun hl => absurd h.2 hl⟩
  | succ n ih =>
    intro A hA stack lower fr hb h
    cases A with
    | nil =>
      have h : some (stack.map Frame.m :: lower) = some [fr] := h
      simp only [Option.some.injEq, List.cons.injEq] at h
      exact ⟨fun _ => ⟨[], stack, h.1, hb, rfl, fun B _ => rfl⟩, fun hl => absurd h.2 hl⟩
    | cons i A =>
      simp only [List.length_cons] at hA
      cases stack with
      | nil => simp [bottomOk] at hb
      | cons head st =>
        rw [List.foldlM_cons] at h
        have plain : ∀ q : List Act, (markStep ((head :: st).map Frame.m :: lower) i =
              some ((head :: st).map Frame.m :: lower)) →
            (∀ (e : Bool) rest, res L cfg e (head :: st) (i :: rest) = pre q (res L cfg e (head :: st) rest)) →
            ((q.map actInd).sum = indOf i) →
            SeamAt L cfg (i :: A) (head :: st) lower fr := by
          intro q hm hr hq
          rw [hm] at h
          exact SeamAt.step (fun e B _ _ => hr e _) hm (fun _ => hq) (ih A (by omega) _ _ _ hb h)
        cases i with
        | literal s =>
          refine plain _ (by simp [markStep]) (fun e rest => by rw [res_cons]) ?_
          split
          · exact sum_texts _
          · rfl
        | lang p i => exact plain _ (by simp [markStep]) (fun e rest => by rw [res_cons]) (sum_texts _)
        | register p i => exact plain [] (by simp [markStep]) (fun e rest => by rw [res_cons]; rfl) rfl
        | push => exact plain _ (by simp [markStep]) (fun e rest => by rw [res_cons]) rfl
        | line => exact plain _ (by simp [markStep]) (fun e rest => by rw [res_cons]) rfl
        | space => exact plain _ (by simp [markStep]) (fun e rest => by rw [res_cons]) rfl
        | indentation k =>
          by_cases hk : k = 0
          · refine plain [] (by simp [markStep]) (fun e rest => by rw [res_cons]; simp [hk, pre_nil]) ?_
            simp [hk, indOf]
          · refine plain [.indent k] (by simp [markStep]) (fun e rest => by rw [res_cons]; simp [hk]) ?_
            simp [actInd, indOf]
        | openQuote ev =>
          cases hq : head.inQuote with
          | false =>
            have hm : markStep ((head :: st).map Frame.m :: lower) (Item.openQuote ev : Item ι) =
                some (({ head with hasEval := ev, inQuote := true } :: st).map Frame.m :: lower) := by
              simp [markStep, Frame.m, hq]
            rw [hm] at h
            refine SeamAt.step (q := texts (L.openQuote ev)) ?_ hm (fun _ => sum_texts _)
              (ih A (by omega) _ _ _ (bottomOk_set hb rfl) h)
            intro e B _ _
            rw [res_cons]
            simp [hq]
          | true =>
            cases ev with
            | true =>
              have hm : markStep ((head :: st).map Frame.m :: lower) (Item.openQuote true : Item ι) = none := by
                simp [markStep, Frame.m, hq]
              rw [hm] at h
              cases h
            | false =>
              have hm : markStep ((head :: st).map Frame.m :: lower) (Item.openQuote false : Item ι) =
                  some ([Frame.default].map Frame.m :: (head :: st).map Frame.m :: lower) := by
                simp [markStep, Frame.m, hq, Frame.default]
              rw [hm] at h
              obtain ⟨p, A', i1, i2, i3, i4⟩ := (ih A (by omega) [Frame.default] _ fr rfl h).2 (by simp)
              have o := ih A' (by omega) (head :: st) lower fr hb i2
              have hr : ∀ (e : Bool) B, Safe B → res L cfg e (head :: st) (.openQuote false :: (A ++ B)) =
                  pre (texts (L.writeQuoted (renderActs cfg (texts (L.openQuote false) ++ p ++
                    texts (L.closeQuote false))))) (res L cfg e (head :: st) (A' ++ B)) := by
                intro e B hB
                rw [res_cons]
                simp [hq, i4 B hB]
              refine ⟨?_, ?_⟩
              · rintro rfl
                obtain ⟨p', st', h1, h2, h3, h4⟩ := o.1 rfl
                refine ⟨_ ++ p', st', h1, h2, ?_, fun B hB => by rw [List.cons_append, hr false B hB, h4 B hB, pre_pre]⟩
                rw [List.map_append, List.sum_append, sum_texts, Int.zero_add, h3, height_cons A hm, if_pos rfl]
                simp only [indOf, Int.zero_add]
                exact i3.symm
              · intro hl
                obtain ⟨p', A'', h1, h2, h3, h4⟩ := o.2 hl
                refine ⟨_ ++ p', A'', by simp only [List.length_cons]; omega, h2, ?_,
                  fun B hB => by rw [List.cons_append, hr true B hB, h4 B hB, pre_eq]⟩
                rw [← h3, height_cons A hm, if_neg hl, Int.zero_add]
                exact i3
        | closeQuote =>
          cases lower with
          | nil =>
            cases hq : head.inQuote with
            | false =>
              have hm : markStep [(head :: st).map Frame.m] (Item.closeQuote : Item ι) = none := by
                simp [markStep, Frame.m, hq]
              rw [hm] at h
              cases h
            | true =>
              have hm : markStep [(head :: st).map Frame.m] (Item.closeQuote : Item ι) =
                  some [({ head with inQuote := false, hasEval := false } :: st).map Frame.m] := by
                simp [markStep, Frame.m, hq]
              rw [hm] at h
              refine SeamAt.step (q := texts (L.closeQuote head.hasEval)) ?_ hm (fun _ => sum_texts _)
                (ih A (by omega) _ _ _ (bottomOk_set hb rfl) h)
              intro e B _ he
              have he : e = false := he
              subst he
              rw [res_cons]
              simp [hq]
          | cons l ls =>
            refine ⟨fun hl => (List.cons_ne_nil _ _ hl).elim, fun _ => ⟨[], A, by simp, ?_, ?_, ?_⟩⟩
            · simpa [markStep] using h
            · rw [height_cons (s' := l :: ls) A (by simp [markStep])]; simp
            · intro B _
              rw [List.cons_append, res_cons]
              simp
        | openEval =>
          cases hq : head.inQuote with
          | false =>
            have hm : markStep ((head :: st).map Frame.m :: lower) (Item.openEval : Item ι) = none := by
              simp [markStep, Frame.m, hq]
            rw [hm] at h
            cases h
          | true =>
            have hm : markStep ((head :: st).map Frame.m :: lower) (Item.openEval : Item ι) =
                some ((⟨false, false, true⟩ :: head :: st).map Frame.m :: lower) := by
              simp [markStep, Frame.m, hq]
            rw [hm] at h
            by_cases hs : ∃ s A2, A = .literal s :: .closeEval :: A2
            · obtain ⟨s, A2, rfl⟩ := hs
              simp only [List.length_cons] at hA
              have h' : A2.foldlM markStep ((head :: st).map Frame.m :: lower) = some [fr] := by
                simpa [List.foldlM_cons, markStep, Frame.m] using h
              have o := ih A2 (by omega) (head :: st) lower fr hb h'
              have hr : ∀ (e : Bool) B, res L cfg e (head :: st)
                  (.openEval :: .literal s :: .closeEval :: (A2 ++ B)) =
                  pre (texts (L.evalLiteral s.text)) (res L cfg e (head :: st) (A2 ++ B)) := by
                intro e B
                rw [res_cons]
                simp [hq]
              have hh : height ((head :: st).map Frame.m :: lower) (.openEval :: .literal s :: .closeEval :: A2) =
                  height ((head :: st).map Frame.m :: lower) A2 := by
                rw [height_cons _ hm, height_cons (s' := (⟨false, false, true⟩ :: head :: st).map Frame.m :: lower) _
                  (by simp [markStep]), height_cons (s' := (head :: st).map Frame.m :: lower) _
                  (by simp [markStep, Frame.m])]
                simp [indOf]
              refine ⟨?_, ?_⟩
              · rintro rfl
                obtain ⟨p', st', h1, h2, h3, h4⟩ := o.1 rfl
                refine ⟨_ ++ p', st', h1, h2, ?_, fun B hB => by
                  rw [List.cons_append, List.cons_append, List.cons_append, hr false B, h4 B hB, pre_pre]⟩
                rw [List.map_append, List.sum_append, sum_texts, Int.zero_add, h3]
                exact hh.symm
              · intro hl
                obtain ⟨p', A'', h1, h2, h3, h4⟩ := o.2 hl
                refine ⟨_ ++ p', A'', by simp only [List.length_cons]; omega, h2, hh.trans h3, fun B hB => by
                  rw [List.cons_append, List.cons_append, List.cons_append, hr true B, h4 B hB, pre_eq]⟩
            · refine SeamAt.step (q := texts L.startEval) ?_ hm (fun _ => sum_texts _)
                (ih A (by omega) _ _ _ (bottomOk_push hb) h)
              intro e B hB _
              rw [res_cons]
              simp only [hq, if_true]
              split
              · rename_i s r hAB
                exfalso
                rcases A with _ | ⟨x, _ | ⟨y, A⟩⟩
                · exact hB.2 _ _ hAB
                · simp only [List.cons_append, List.nil_append, List.cons.injEq] at hAB
                  exact hB.1 _ hAB.2
                · simp only [List.cons_append, List.cons.injEq] at hAB
                  exact hs ⟨s, A, by rw [hAB.1, hAB.2.1]⟩
              · rfl
        | closeEval =>
          cases hev : head.endOnEval with
          | false =>
            have hm : markStep ((head :: st).map Frame.m :: lower) (Item.closeEval : Item ι) = none := by
              simp [markStep, Frame.m, hev]
            rw [hm] at h
            cases h
          | true =>
            have hm : markStep ((head :: st).map Frame.m :: lower) (Item.closeEval : Item ι) =
                some (st.map Frame.m :: lower) := by
              simp [markStep, Frame.m, hev]
            rw [hm] at h
            refine SeamAt.step (q := texts L.endEval) ?_ hm (fun _ => sum_texts _)
              (ih A (by omega) _ _ _ (bottomOk_cons hb hev) h)
            intro e B _ _
            rw [res_cons]
            simp [hev]

/-! ## Whitespace between two texts, anywhere -/

/-- What a plain item asks for behind a frame. -/
def behind (L : Lang ι) (f : Frame) (i : Item ι) : List Act :=
  if f.inQuote then quotedActs L i else plainActs L.langItem i

theorem res_behind (L : Lang ι) (cfg : Config) (head : Frame) (st : List Frame) (items rest : List (Item ι))
    (hp : ∀ i ∈ items, isPlain i = true) (e : Bool) :
    res L cfg e (head :: st) (items ++ rest) =
      pre (items.flatMap (behind L head)) (res L cfg e (head :: st) rest) := by
  cases hq : head.inQuote with
  | false =>
    rw [res_plain L cfg items hp rest e head st hq]
    congr 2
    funext i
    simp [behind, hq]
  | true =>
    induction items with
    | nil => rfl
    | cons i items ih =>
      rw [List.cons_append, res_quoted L cfg i (hp i (by simp)) _ e head st hq,
        ih (fun j hj => hp j (by simp [hj])), pre_pre, List.flatMap_cons]
      congr 2
      simp [behind, hq]

theorem explode_behind (L : Lang ι) (head : Frame) (s : ItemStr) :
    explode (behind L head (.literal s)) = explode [.text (written L head.m s.text)] := by
  cases hq : head.inQuote with
  | false => simp [behind, hq, written, Frame.m, plainActs]
  | true =>
    simp only [behind, hq, if_true, quotedActs, written, Frame.m]
    exact (explode_texts _).trans (by simp [explode, explode1])

/-- Items that part whitespace: everything but texts that show. -/
def parting : Item ι → Bool
  | .literal s => s.text.isEmpty
  | .register _ _ | .push | .line | .space | .indentation _ => true
  | _ => false

theorem parting_plain {i : Item ι} (h : parting i = true) : isPlain i = true := by
  cases i <;> first | rfl | cases h

theorem explode_parting (L : Lang ι) (hL : Shows L) (head : Frame) (G : List (Item ι))
    (h : ∀ i ∈ G, parting i = true) :
    explode (G.flatMap (behind L head)) = explode (G.flatMap (plainActs L.langItem)) := by
  induction G with
  | nil => rfl
  | cons i G ih =>
    rw [List.flatMap_cons, List.flatMap_cons, explode_append, explode_append, ih (fun j hj => h j (by simp [hj]))]
    congr 1
    have hi := h i (by simp)
    cases i with
    | literal s =>
      have hs : s.text = [] := by simpa [parting] using hi
      rw [explode_behind, written, hs, (hL []).2 rfl]
      simp [plainActs, hs]
    | lang p i => cases hi
    | _ => simp [behind, quotedActs]

/-- The items of whitespace calls parted by silent calls. -/
theorem parting_items (f : ι → List Str) (ps : List (Call ι × List WsCall)) (hp : ∀ p ∈ ps, Silent p.1) :
    ∀ (t : Tokens ι) (_ : Closed t.rev) (w : List WsCall), ∃ G, (∀ i ∈ G, parting i = true) ∧
      Fits (w :: ps.map Prod.snd) (G.flatMap (plainActs f)) ∧
      ((w.map WsCall.call ++ ps.flatMap (fun p : Call ι × List WsCall => p.1 :: p.2.map WsCall.call)).foldl
        Call.run t).items = t.items ++ G := by
  have seg : ∀ (t : Tokens ι) (_ : Closed t.rev) (w : List WsCall), ∃ G, (∀ i ∈ G, parting i = true) ∧
      Fits [w] (G.flatMap (plainActs f)) ∧ ((w.map WsCall.call).foldl Call.run t).items = t.items ++ G := by
    intro t ht w
    obtain ⟨r, hr, hs⟩ := gap_shape ht t rfl w.reverse
    rw [List.reverse_reverse, net_reverse] at hs
    refine ⟨(indPart (net w)).reverse ++ r.reverse, ?_, ?_, ?_⟩
    · intro i hi
      simp only [List.mem_append, List.mem_reverse] at hi
      rcases hi with hi | hi
      · unfold indPart at hi
        split at hi
        · simp only [List.mem_singleton] at hi; subst hi; rfl
        · simp at hi
      · have := hr.soft i hi
        cases i <;> first | rfl | cases this
    · have hi : (indPart (net w) : List (Item ι)).reverse.flatMap (plainActs f) =
          if net w ≠ 0 then [Act.indent (net w)] else [] := by
        unfold indPart
        by_cases hz : net w = 0 <;> simp [hz, plainActs]
      have hsoft : r.reverse.flatMap (plainActs f) = (r.map softAct).reverse := by
        rw [soft_acts _ _ (fun i hi => hr.soft i (by simpa using hi)), List.map_reverse]
      rw [List.flatMap_append, hi, hsoft]
      exact fits_one hr
    · simp [items, hs]
  induction ps with
  | nil =>
    intro t ht w
    obtain ⟨G, h1, h2, h3⟩ := seg t ht w
    exact ⟨G, h1, h2, by simpa using h3⟩
  | cons p ps ih =>
    intro t ht w
    obtain ⟨G, h1, h2, h3⟩ := seg t ht w
    obtain ⟨i, k1, k2, k3⟩ := silent_run (hp p (by simp)) f ((w.map WsCall.call).foldl Call.run t)
    have hi : parting i = true := by
      have hsil := hp p (by simp)
      generalize p.1 = c at hsil k1
      cases hsil with
      | register j =>
        have : i = _ := (List.cons.inj k1).1.symm
        subst this; rfl
      | empty s hs =>
        have : i = _ := (List.cons.inj k1).1.symm
        subst this; simp [parting, hs]
    obtain ⟨G', h4, h5, h6⟩ := ih (fun x hx => hp x (by simp [hx]))
      (Call.run ((w.map WsCall.call).foldl Call.run t) p.1) (by rw [k1]; exact k2) p.2
    refine ⟨G ++ (i :: G'), ?_, ?_, ?_⟩
    · intro j hj
      simp only [List.mem_append, List.mem_cons] at hj
      rcases hj with hj | rfl | hj
      · exact h1 j hj
      · exact hi
      · exact h4 j hj
    · rw [List.flatMap_append, List.flatMap_cons]
      exact fits_cons h2 k3 h5
    · have hit : (Call.run ((w.map WsCall.call).foldl Call.run t) p.1).items = t.items ++ G ++ [i] := by
        rw [← h3]
        simp only [items, k1, List.reverse_cons]
      rw [hit] at h6
      rw [List.flatMap_cons, List.foldl_append, List.cons_append, List.foldl_cons, h6]
      simp

/-- The whitespace between two texts, whatever comes before and behind them. -/
theorem anywhere (L : Lang ι) (hL : Shows L) (cfg : Config) (cs ds : List (Call ι)) (f : MFrame) (fs : List MFrame)
    (hc : marks (history cs).items = some [f :: fs]) (a b : ItemStr) (ha : a.text ≠ []) (hb : b.text ≠ []) :
    ∃ out, toString L cfg (history (cs ++ [.append (.literal a)])).items = some out ∧
    ∀ n : Int, ∃ rest : Option Str, (ds = [] → rest = some []) ∧
      ∀ (w : List WsCall) (ps : List (Call ι × List WsCall)), (∀ p ∈ ps, Silent p.1) →
        ((w :: ps.map Prod.snd).map net).sum = n →
        toString L cfg (history (cs ++ [.append (.literal a)] ++
          (w.map WsCall.call ++ ps.flatMap (fun p => p.1 :: p.2.map WsCall.call)) ++
          [.append (.literal b)] ++ ds)).items =
        rest.map (fun r => out ++ partText cfg (height [[⟨false, false⟩]] (history cs).items) (w :: ps.map Prod.snd) ++
          written L f b.text ++ r) := by
  obtain ⟨p, st', s1, s2, s3, s4⟩ := (seam L cfg _ (history cs).items (Nat.le_refl _) [Frame.default] [] (f :: fs) rfl hc).1 rfl
  have s3 : (p.map actInd).sum = height [[⟨false, false⟩]] (history cs).items := s3
  cases st' with
  | nil => cases s1
  | cons head st =>
  have hf : head.m = f := (List.cons.inj s1).1
  subst hf
  have vis : ∀ s : ItemStr, s.text ≠ [] → written L head.m s.text ≠ [] := by
    intro s hs
    unfold written
    split
    · exact fun h => hs ((hL _).1 h)
    · exact hs
  have hrev : (history (cs ++ [.append (.literal a)])).rev = .literal a :: (history cs).rev := by
    simp only [history, List.foldl_append]; rfl
  have hit : (history (cs ++ [.append (.literal a)])).items = (history cs).items ++ [.literal a] := by
    simp [items, hrev]
  refine ⟨render cfg (p ++ [.text (written L head.m a.text)]), ?_, ?_⟩
  · have hr : (resolveItems L cfg (history (cs ++ [.append (.literal a)])).items) =
        (p ++ behind L head (.literal a), some ()) := by
      have := s4 [.literal a] ⟨by simp, by simp⟩
      have h2 := res_behind L cfg head st [.literal a] [] (by simp [isPlain]) false
      simp only [List.append_nil, List.flatMap_cons, List.flatMap_nil] at h2
      rw [h2, pre_pre] at this
      rw [hit]
      unfold res at this
      simp only [resolveItems, this]
      simp [resolve, pre]
    rw [toString_eq, hr, Option.map_some, ← renderActs_eq, ← renderActs_eq]
    congr 1
    exact renderActs_explode (by rw [explode_append, explode_append, explode_behind])
  · intro n
    let D := (history ds).items
    refine ⟨(res L cfg false (head :: st) D).2.map fun _ =>
      evText cfg.newline (actsEv cfg ⟨.none, 0, height [[⟨false, false⟩]] (history cs).items + n⟩
        (res L cfg false (head :: st) D).1), ?_, ?_⟩
    · rintro rfl
      rfl
    · intro w ps hps hn
      obtain ⟨G, g1, g2, g3⟩ := parting_items L.langItem ps hps (history (cs ++ [.append (.literal a)]))
        (by rw [hrev]; rfl) w
      have hitems : (history (cs ++ [.append (.literal a)] ++
          (w.map WsCall.call ++ ps.flatMap (fun p => p.1 :: p.2.map WsCall.call)) ++
          [.append (.literal b)] ++ ds)).items.map erase =
          ((history cs).items ++ (.literal a :: (G ++ .literal b :: D))).map erase := by
        have hs := fromIter_split ((cs ++ [Call.append (.literal a)] ++
          (w.map WsCall.call ++ ps.flatMap (fun p : Call ι × List WsCall => p.1 :: p.2.map WsCall.call))).flatMap callItems)
          (ds.flatMap callItems) (.literal b : Item ι) rfl
        have hX : (history (cs ++ [.append (.literal a)] ++
          (w.map WsCall.call ++ ps.flatMap (fun p => p.1 :: p.2.map WsCall.call)))).items =
          (history cs).items ++ [.literal a] ++ G := by
          rw [← hit, ← g3]
          simp only [history, List.foldl_append]
        rw [← history_eq, ← history_eq, hX] at hs
        rw [history_eq, List.flatMap_append, List.flatMap_append, show
          ([Call.append (.literal b)] : List (Call ι)).flatMap callItems = [.literal b] from rfl,
          List.append_assoc _ [Item.literal b], List.singleton_append, hs]
        simp [D, erase]
      have hres : resolveItems L cfg ((history cs).items ++ (.literal a :: (G ++ .literal b :: D))) =
          (p ++ (behind L head (.literal a) ++ G.flatMap (behind L head) ++ behind L head (.literal b)) ++
            (res L cfg false (head :: st) D).1, (res L cfg false (head :: st) D).2.map fun _ => ()) := by
        have h1 := s4 (.literal a :: (G ++ .literal b :: D)) (by
          refine ⟨by simp, ?_⟩
          intro s r h
          simp only [List.cons.injEq] at h
          cases G with
          | nil => simp at h
          | cons x G =>
            have := g1 x (by simp)
            simp only [List.cons_append, List.cons.injEq] at h
            rw [h.2.1] at this
            cases this)
        have h2 := res_behind L cfg head st (.literal a :: (G ++ [.literal b])) D (by
          intro i hi
          simp only [List.mem_cons, List.mem_append, List.not_mem_nil, or_false] at hi
          rcases hi with rfl | hi | rfl
          · rfl
          · exact parting_plain (g1 i hi)
          · rfl) false
        have e : .literal a :: (G ++ [.literal b]) ++ D = .literal a :: (G ++ .literal b :: D) := by simp
        rw [e] at h2
        rw [h2, pre_pre] at h1
        unfold res at h1
        simp only [resolveItems, h1]
        simp [pre, res]
      rw [toString_eq, resolveItems_congr L cfg hitems, hres, Option.map_map, Option.map_map]
      congr 1
      funext _
      simp only [Function.comp_apply]
      have hx : render cfg (p ++ (behind L head (.literal a) ++ G.flatMap (behind L head) ++ behind L head (.literal b)) ++
          (res L cfg false (head :: st) D).1) =
          render cfg ((p ++ [.text (written L head.m a.text)] ++ G.flatMap (plainActs L.langItem) ++
            [.text (written L head.m b.text)]) ++ (res L cfg false (head :: st) D).1) := by
        rw [← renderActs_eq, ← renderActs_eq]
        refine renderActs_explode ?_
        simp only [explode_append, explode_behind, explode_parting L hL head G g1, List.append_assoc]
      rw [hx, render_append, render_concat cfg _ _ g2.inv _ (vis b hb),
        place_parts cfg p _ _ (vis a ha) g2, s3]
      have hst : specSt (p ++ [.text (written L head.m a.text)] ++ G.flatMap (plainActs L.langItem) ++
            [.text (written L head.m b.text)]) =
          ⟨.none, 0, height [[⟨false, false⟩]] (history cs).items + n⟩ := by
        have hv : visible (.text (written L head.m b.text)) = true := by simp [visible, vis b hb]
        have hsum : ((p ++ [Act.text (written L head.m a.text)] ++ G.flatMap (plainActs L.langItem) ++
            [Act.text (written L head.m b.text)]).map actInd).sum = height [[⟨false, false⟩]] (history cs).items + n := by
          simp only [List.map_append, List.sum_append, g2.sum, s3, hn]
          simp [actInd]
        simp only [specSt, isFirst_concat, gap_concat, hv, seps, hsum]
        simp [afterLast]
      rw [hst]
      simp

end Genco
