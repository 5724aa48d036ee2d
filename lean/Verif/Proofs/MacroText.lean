import Verif.Proofs.MacroTold
import Verif.Proofs.MacroEmpty
import Verif.Proofs.Pieces

/-!
# Quoted tokens, rendered
-/

set_option autoImplicit false
set_option linter.unusedSectionVars false

namespace Genco.Macro

open Spec Spec.MacroFile Tokens

variable {ι E Env : Type}

/-! ## Marks of tokens -/

/-- The mark of a whitespace call. -/
def wsMark (w : WsCall) : Mark ι := .call w.call

def tokMarks (ts : List Tok) : List (Cur × List (Mark ι)) := ts.map (fun t => (t.1, t.2.map .char))

theorem stepsOf_tokens (H : Host ι E Env) (ts : List Tok) :
    stepsOf H (tokens ts) = some ((tokMarks ts).map (fun q => (q.1, q.2.map Step.mark))) := by
  induction ts with
  | nil => rfl
  | cons t ts ih =>
    show (stepsOf H (tokens ts)).bind (fun b => some ([(t.1, Step.text t.2)] ++ b)) = _
    rw [ih]
    show some _ = some _
    congr 1
    show _ :: _ = _ :: _
    congr 1
    show (t.1, _) = (t.1, (t.2.map Mark.char).map Step.mark)
    rw [List.map_map]
    rfl

theorem perform_marks (ms : List (Mark ι)) (ρ : Env) : perform ρ (ms.map Step.mark) = ms := by
  induction ms with
  | nil => rfl
  | cons m ms ih => exact congrArg (m :: ·) ih

theorem quoted_tokens (H : Host ι E Env) (span : Option Cur) (ts : List Tok) :
    quoted H span (tokens ts) = (block wsMark (span.map inner) (tokMarks ts)).map (·.map Step.mark) := by
  rw [quoted, stepsOf_tokens, Option.bind_some, ← block_map]
  rfl

/-! ## Rendering of marks -/

/-- Items for a mark. -/
def markItems : Mark ι → List (Item ι)
  | .char c => [.literal (.static [c])]
  | .call c => callItems c

/-- What items ask for. -/
def actsFor (f : ι → List Str) (l : List (Item ι)) : List Act := (norm l).flatMap (plainActs f)

theorem actsFor_nil (f : ι → List Str) : actsFor f [] = [] := rfl

theorem actsFor_split (f : ι → List Str) (w l : List (Item ι)) (s : ItemStr) :
    actsFor f (w ++ .literal s :: l) = actsFor f w ++ .text s.text :: actsFor f l := by
  unfold actsFor
  rw [norm_split _ _ _ rfl, List.flatMap_append, List.flatMap_cons]
  rfl

theorem actsFor_items (f : ι → List Str) (cs : List (Call ι)) :
    (history cs).items.flatMap (plainActs f) = actsFor f (cs.flatMap callItems) := by
  have herase : ∀ l : List (Item ι), (l.map erase).flatMap (plainActs f) = l.flatMap (plainActs f) := by
    intro l
    induction l with
    | nil => rfl
    | cons i l ih => rw [List.map_cons, List.flatMap_cons, List.flatMap_cons, ih]; cases i <;> rfl
  rw [actsFor, norm, herase, history_eq]

theorem vecActs_append (cfg : Config) (a b : List Act) : ∀ (st : LSt) (v : VecState),
    vecActs cfg st v (a ++ b) = vecActs cfg (actsSt st a) (vecActs cfg st v a) b := by
  induction a with
  | nil => intro st v; rfl
  | cons x a ih => intro st v; exact ih _ _

theorem actsSt_append (a b : List Act) : ∀ (st : LSt), actsSt st (a ++ b) = actsSt (actsSt st a) b := by
  induction a with
  | nil => intro st; rfl
  | cons x a ih => intro st; exact ih _

theorem vecActs_two (cfg : Config) (st : LSt) (v : VecState) (a b : Str) (ha : a ≠ []) (hb : b ≠ []) (q : List Act) :
    vecActs cfg st v (.text (a ++ b) :: q) = vecActs cfg st v (.text a :: .text b :: q) := by
  have hab : a ++ b ≠ [] := by simp [ha]
  have hs : actSt st (.text (a ++ b)) = actSt (actSt st (.text a)) (.text b) := by
    simp [actSt, ha, hb, LSt.flushed]
  have hv : vecAct cfg st v (.text (a ++ b)) = vecAct cfg (actSt st (.text a)) (vecAct cfg st v (.text a)) (.text b) := by
    have hf : ∀ i, flushPad cfg ⟨.none, 0, i⟩ = [] := fun i => rfl
    obtain ⟨l, sp, ind⟩ := st
    cases l <;> simp [vecAct, actSt, ha, hb, LSt.flushed, hf]
  show vecActs cfg _ _ q = vecActs cfg _ _ q
  rw [hs, hv]

theorem vecActs_chars (cfg : Config) (q : List Act) (s : Str) (hs : s ≠ []) : ∀ (st : LSt) (v : VecState),
    vecActs cfg st v (.text s :: q) = vecActs cfg st v (s.map (fun c => .text [c]) ++ q) := by
  induction s with
  | nil => exact absurd rfl hs
  | cons c s ih =>
    intro st v
    cases s with
    | nil => rfl
    | cons d s =>
      have := vecActs_two cfg st v [c] (d :: s) (by simp) (by simp) q
      rw [List.singleton_append] at this
      rw [this]
      exact ih (by simp) _ _

theorem actsFor_chars (f : ι → List Str) (s : Str) (l w : List (Item ι)) (hs : s ≠ []) :
    actsFor f (w ++ ((s.map (Mark.char (ι := ι))).flatMap markItems ++ l)) =
      actsFor f w ++ (s.map (fun c => .text [c]) ++ actsFor f l) := by
  induction s generalizing w with
  | nil => exact absurd rfl hs
  | cons c s ih =>
    show actsFor f (w ++ .literal (.static [c]) :: ((s.map (Mark.char (ι := ι))).flatMap markItems ++ l)) = _
    rw [actsFor_split]
    congr 1
    show _ :: _ = _ :: _
    congr 1
    cases s with
    | nil => rfl
    | cons d s => exact ih [] (by simp)

/-- Rendering depends on the marks only. -/
theorem vecActs_marks (f : ι → List Str) (cfg : Config) (cs : List (Call ι)) (h : ∀ c ∈ cs, ¬ EmptyCall c) :
    ∀ (w : List (Item ι)) (st : LSt) (v : VecState), vecActs cfg st v (actsFor f (w ++ cs.flatMap callItems)) =
      vecActs cfg st v (actsFor f (w ++ (marks cs).flatMap markItems)) := by
  induction cs with
  | nil => intro w st v; rfl
  | cons c cs ih =>
    have hcs : ∀ c ∈ cs, ¬ EmptyCall c := fun d hd => h d (by simp [hd])
    intro w st v
    have gen : markOf c = [.call c] → vecActs cfg st v (actsFor f (w ++ (c :: cs).flatMap callItems)) =
        vecActs cfg st v (actsFor f (w ++ (marks (c :: cs)).flatMap markItems)) := by
      intro hm
      have : marks (c :: cs) = .call c :: marks cs := by
        show markOf c ++ marks cs = _
        rw [hm]; rfl
      rw [this, List.flatMap_cons, List.flatMap_cons, ← List.append_assoc, ← List.append_assoc]
      exact ih hcs _ st v
    cases c with
    | append i =>
      cases i with
      | literal l =>
        cases l with
        | «static» s =>
          have hs : s ≠ [] := fun e => h (.append (.literal (.static s))) (by simp) (by rw [e]; rfl)
          have hm : marks (.append (.literal (.static s)) :: cs) = s.map .char ++ marks cs := rfl
          rw [hm, List.flatMap_append, actsFor_chars f s _ w hs]
          show vecActs cfg st v (actsFor f (w ++ .literal (.static s) :: cs.flatMap callItems)) = _
          rw [actsFor_split, vecActs_append, vecActs_append]
          show vecActs cfg _ _ (.text s :: _) = _
          rw [vecActs_chars cfg _ s hs, vecActs_append, vecActs_append]
          exact ih hcs [] _ _
        | _ => exact gen rfl
      | _ => exact gen rfl
    | _ => exact gen rfl

theorem toVec_marks (L : Lang ι) (cfg : Config) (cs : List (Call ι)) (h : ∀ c ∈ cs, ¬ EmptyCall c)
    (hp : ∀ i ∈ cs.flatMap callItems, isPlain i = true) :
    toVec L cfg (history cs).items =
      some (vecActs cfg .new .new (actsFor L.langItem ((marks cs).flatMap markItems))).intoVec := by
  have hp' : ∀ i ∈ (history cs).items, isPlain i = true := by
    rw [history_eq]
    exact plain_fromIter _ hp
  rw [toVec_eq, resolveItems_plain L cfg _ hp', actsFor_items]
  show some _ = some _
  have := vecActs_marks L.langItem cfg cs h [] .new .new
  rw [List.nil_append, List.nil_append] at this
  rw [this]

/-! ## Gaps -/

def gapItems (w : List WsCall) : List (Item ι) := w.flatMap (fun c => callItems c.call)

theorem gapItems_eq (w : List WsCall) : (w.map (wsMark (ι := ι))).flatMap markItems = gapItems w := by
  rw [gapItems, List.flatMap_map]
  rfl

theorem rev_unindents (n : Nat) (blank : Bool) :
    (fromIter (ι := ι) (gapItems ((List.replicate (n + 1) (WsCall.unindent :: (if blank then [.line] else []))).flatten))).rev =
      (if blank then [.line] else []) ++ [.indentation (-((n : Int) + 1))] := by
  induction n with
  | zero => cases blank <;> rfl
  | succ n ih =>
    have e : (List.replicate (n + 1 + 1) (WsCall.unindent :: (if blank then [WsCall.line] else []))).flatten =
      (List.replicate (n + 1) (WsCall.unindent :: (if blank then [.line] else []))).flatten ++
        (WsCall.unindent :: (if blank then [.line] else [])) := by
      rw [List.replicate_succ', List.flatten_append, List.flatten_singleton]
    rw [e, gapItems, List.flatMap_append, fromIter, Tokens.extend, List.foldl_append]
    have ih' : (((gapItems ((List.replicate (n + 1) (WsCall.unindent :: (if blank then [.line] else []))).flatten)).foldl
      item Tokens.new : Tokens ι)).rev = _ := ih
    unfold gapItems at ih'
    generalize List.foldl item (Tokens.new : Tokens ι) _ = t at ih' ⊢
    obtain ⟨r, x⟩ := t
    dsimp only at ih'
    subst ih'
    have hn : (-1 + -((n : Int) + 1)) = -(((n + 1 : Nat) : Int) + 1) := by omega
    have hz : -(((n + 1 : Nat) : Int) + 1) ≠ 0 := by omega
    cases blank with
    | true =>
      show lineRev (indentationRev (-1) [.line, .indentation (-((n : Int) + 1))]) = _
      rw [indentationRev, indentationRev, hn, indentationRev, if_pos hz]
      · rfl
      all_goals simp
    | false =>
      show indentationRev (-1) [.indentation (-((n : Int) + 1))] = _
      rw [indentationRev, hn, indentationRev, if_pos hz]
      · rfl
      all_goals simp

theorem norm_of_rev {l r : List (Item ι)} (h : (fromIter l).rev = r) : norm l = r.reverse.map erase := by
  rw [norm, Tokens.items, h]

theorem acts_unindents (f : ι → List Str) (n : Nat) (blank : Bool) :
    actsFor f (gapItems ((List.replicate (n + 1) (WsCall.unindent :: (if blank then [.line] else []))).flatten)) =
      .indent (-((n : Int) + 1)) :: (if blank then [.line] else []) := by
  rw [actsFor, norm_of_rev (rev_unindents n blank)]
  cases blank <;> rfl

/-- The state behind a break. -/
theorem acts_break (f : ι → List Str) (old new : Nat) (hn : new ≤ old + 1) (blank : Bool) :
    actsSt ⟨.none, 0, old⟩ (actsFor f (gapItems (breakCalls old new blank))) =
      ⟨if blank then .line else .push, 0, new⟩ := by
  unfold breakCalls
  by_cases h1 : old < new
  · have : new = old + 1 := by omega
    subst this
    rw [if_pos h1]
    cases blank <;> rfl
  · rw [if_neg h1]
    by_cases h2 : old = new
    · subst h2
      rw [if_pos rfl]
      cases blank <;> rfl
    · rw [if_neg h2]
      obtain ⟨n, hn⟩ : ∃ n, old - new = n + 1 := ⟨old - new - 1, by omega⟩
      rw [hn, acts_unindents]
      have e : (old : Int) + -((n : Int) + 1) = new := by omega
      cases blank
      · show (⟨.push, 0, (old : Int) + -((n : Int) + 1)⟩ : LSt) = _
        rw [e]; rfl
      · show (⟨.line, 0, (old : Int) + -((n : Int) + 1)⟩ : LSt) = _
        rw [e]; rfl

theorem soft_gap (f : ι → List Str) (w : List WsCall) : ∀ a ∈ actsFor f (gapItems w), visible a = false := by
  have ws : ∀ (l : List (Item ι)), (∀ i ∈ l, isWs i = true) → ∀ t : Tokens ι, (∀ i ∈ t.rev, isWs i = true) →
      ∀ i ∈ (t.extend l).rev, isWs i = true := by
    intro l
    induction l with
    | nil => intro _ t ht; exact ht
    | cons x l ih =>
      intro hl t ht
      refine ih (fun i hi => hl i (by simp [hi])) (t.item x) ?_
      have hx := hl x (by simp)
      intro i hi
      cases x with
      | space => rcases mem_spaceRev hi with rfl | hi; · rfl
                 exact ht i hi
      | push => rcases mem_pushRev hi with rfl | hi; · rfl
                exact ht i hi
      | line => rcases mem_lineRev hi with rfl | hi; · rfl
                exact ht i hi
      | indentation n =>
        rcases mem_indentationRev hi with ⟨m, rfl⟩ | hi
        · rfl
        · exact ht i hi
      | _ => cases hx
  intro a ha
  rw [actsFor, norm, Tokens.items] at ha
  obtain ⟨i, hi, ha⟩ := List.mem_flatMap.1 ha
  obtain ⟨j, hj, rfl⟩ := List.mem_map.1 hi
  have hw := ws (gapItems w) (by
    intro i hi
    obtain ⟨c, -, hi⟩ := List.mem_flatMap.1 hi
    cases c <;> (cases List.mem_singleton.1 hi; rfl)) Tokens.new (by intro i hi; cases hi) j (List.mem_reverse.1 hj)
  cases j with
  | space => cases List.mem_singleton.1 ha; rfl
  | push => cases List.mem_singleton.1 ha; rfl
  | line => cases List.mem_singleton.1 ha; rfl
  | indentation n =>
    have ha : a ∈ (if n = 0 then [] else [Act.indent n]) := ha
    split at ha
    · cases ha
    · cases List.mem_singleton.1 ha; rfl
  | _ => cases hw

theorem vecActs_soft (cfg : Config) (l : List Act) (h : ∀ a ∈ l, visible a = false) : ∀ (st : LSt) (v : VecState),
    vecActs cfg st v l = v := by
  induction l with
  | nil => intro st v; rfl
  | cons a l ih =>
    intro st v
    rw [vecActs, vecAct_ws (h a (by simp))]
    exact ih (fun b hb => h b (by simp [hb])) _ _

/-- A gap and a text. -/
theorem vec_gap_text (f : ι → List Str) (cfg : Config) (w : List WsCall) (s : Str) (hs : s ≠ []) (ms : List (Mark ι))
    (st : LSt) (v : VecState) :
    vecActs cfg st v (actsFor f ((w.map wsMark ++ s.map Mark.char ++ ms).flatMap markItems)) =
      vecActs cfg (actSt (actsSt st (actsFor f (gapItems w))) (.text s))
        (vecAct cfg (actsSt st (actsFor f (gapItems w))) v (.text s)) (actsFor f (ms.flatMap markItems)) := by
  rw [List.flatMap_append, List.flatMap_append, gapItems_eq, List.append_assoc, actsFor_chars f s _ _ hs,
    vecActs_append, vecActs_soft cfg _ (soft_gap f w), ← vecActs_chars cfg _ s hs]
  rfl

/-! ## Lines -/

/-- Marks of the tokens of a line behind the first. -/
def restMarks (r : List (Nat × Str)) : List (Mark ι) :=
  r.flatMap (fun p => (if p.1 = 0 then [] else [wsMark .space]) ++ p.2.map .char)

def restText (r : List (Nat × Str)) : Str := r.flatMap (fun p => (if p.1 = 0 then [] else [' ']) ++ p.2)

theorem vec_rest (f : ι → List Str) (cfg : Config) (k : Int) (ms : List (Mark ι)) (r : List (Nat × Str))
    (h : ∀ p ∈ r, p.2 ≠ []) : ∀ (v : VecState),
    vecActs cfg ⟨.none, 0, k⟩ v (actsFor f ((restMarks r ++ ms).flatMap markItems)) =
      vecActs cfg ⟨.none, 0, k⟩ { v with lineBuffer := v.lineBuffer ++ restText r }
        (actsFor f (ms.flatMap markItems)) := by
  induction r with
  | nil => intro v; simp [restMarks, restText]
  | cons p r ih =>
    obtain ⟨n, s⟩ := p
    intro v
    have hs : s ≠ [] := h (n, s) (by simp)
    have e : restMarks ((n, s) :: r) ++ ms =
      (if n = 0 then [] else [WsCall.space]).map (wsMark (ι := ι)) ++ s.map .char ++ (restMarks r ++ ms) := by
      unfold restMarks
      rw [List.flatMap_cons]
      by_cases hn : n = 0 <;> simp [hn]
    rw [e, vec_gap_text f cfg _ s hs]
    have hst : ∀ st : LSt, actSt st (.text s) = ⟨.none, 0, st.indent⟩ := by
      intro st; simp [actSt, hs, LSt.flushed]
    rw [hst]
    have he : restText ((n, s) :: r) = (if n = 0 then [] else [' ']) ++ s ++ restText r := by
      unfold restText; rw [List.flatMap_cons]
    by_cases hn : n = 0
    · rw [if_pos hn] at he ⊢
      have := ih (fun p hp => h p (by simp [hp])) { v with lineBuffer := v.lineBuffer ++ s }
      have hv : vecAct cfg ⟨.none, 0, k⟩ v (.text s) = { v with lineBuffer := v.lineBuffer ++ s } := by
        simp [vecAct, hs, flushPad]
      show vecActs cfg ⟨.none, 0, k⟩ (vecAct cfg ⟨.none, 0, k⟩ v (.text s)) _ = _
      rw [hv, this, he]
      simp
    · rw [if_neg hn] at he ⊢
      have := ih (fun p hp => h p (by simp [hp])) { v with lineBuffer := v.lineBuffer ++ (' ' :: s) }
      have hv : vecAct cfg ⟨.none, 1, k⟩ v (.text s) = { v with lineBuffer := v.lineBuffer ++ (' ' :: s) } := by
        simp [vecAct, hs, flushPad]
      show vecActs cfg ⟨.none, 0, k⟩ (vecAct cfg ⟨.none, 1, k⟩ v (.text s)) _ = _
      rw [hv, this, he]
      simp

/-- Marks of lines below others. -/
def tailMarks (p : Nat) (past : List Nat) : List SrcLine → List (Mark ι)
  | [] => (List.replicate (depth p past) WsCall.unindent).map wsMark
  | l :: ls => (breakCalls (depth p past) (depth l.column (p :: past)) (decide (0 < l.above))).map wsMark ++
      l.first.map .char ++ (restMarks l.rest ++ tailMarks l.column (p :: past) ls)

theorem vec_tail (f : ι → List Str) (cfg : Config) (ls : List SrcLine) (h : ∀ l ∈ ls, Inked l) :
    ∀ (p : Nat) (past : List Nat) (v : VecState),
    (vecActs cfg ⟨.none, 0, depth p past⟩ v (actsFor f ((tailMarks (ι := ι) p past ls).flatMap markItems))).intoVec =
      v.intoVec ++ outLines cfg (p :: past) ls := by
  induction ls with
  | nil =>
    intro p past v
    rw [tailMarks, gapItems_eq, vecActs_soft cfg _ (soft_gap f _)]
    simp [outLines]
  | cons l ls ih =>
    intro p past v
    obtain ⟨hf, hr⟩ := h l (by simp)
    rw [tailMarks, vec_gap_text f cfg _ _ hf, acts_break f _ _ (depth_next _ _ _)]
    have hst : ∀ st : LSt, actSt st (.text l.first) = ⟨.none, 0, st.indent⟩ := by
      intro st; simp [actSt, hf, LSt.flushed]
    rw [hst, vec_rest f cfg _ _ _ hr, ih (fun x hx => h x (by simp [hx]))]
    by_cases ha : 0 < l.above
    · simp [ha, vecAct, hf, flushPad, VecState.intoVec, outLines, srcText, restText]
    · simp [ha, vecAct, hf, flushPad, VecState.intoVec, outLines, srcText, restText]

theorem vec_lines (f : ι → List Str) (cfg : Config) (l : SrcLine) (ls : List SrcLine) (h : ∀ x ∈ l :: ls, Inked x) :
    (vecActs cfg .new .new (actsFor f ((l.first.map Mark.char ++ (restMarks (ι := ι) l.rest ++
      tailMarks l.column [] ls)).flatMap markItems))).intoVec = outLines cfg [] (l :: ls) := by
  obtain ⟨hf, hr⟩ := h l (by simp)
  have := vec_gap_text (ι := ι) f cfg [] l.first hf (restMarks l.rest ++ tailMarks l.column [] ls) .new .new
  rw [show List.map wsMark [] ++ l.first.map (Mark.char (ι := ι)) = l.first.map .char from rfl] at this
  rw [this]
  have hst : ∀ st : LSt, actSt st (.text l.first) = ⟨.none, 0, st.indent⟩ := by
    intro st; simp [actSt, hf, LSt.flushed]
  rw [hst, vec_rest f cfg _ _ _ hr]
  have e := vec_tail f cfg ls (fun x hx => h x (by simp [hx])) l.column []
  rw [show depth l.column [] = 0 from rfl] at e
  show (vecActs cfg ⟨.none, 0, ((0 : Nat) : Int)⟩ _ _).intoVec = _
  rw [e]
  have m0 : marginText cfg 0 = [] := by
    unfold marginText; cases cfg.indentation <;> simp
  show _ = (if 0 < l.above ∧ ([] : List Nat) ≠ [] then [[]] else []) ++ _
  rw [if_neg (by simp)]
  have hv : vecAct cfg (.new) .new (.text l.first) = ⟨l.first, []⟩ := by
    simp [vecAct, hf, LSt.new, flushPad, m0, VecState.new]
  show (VecState.intoVec { vecAct cfg .new .new (.text l.first) with
    lineBuffer := (vecAct cfg .new .new (.text l.first)).lineBuffer ++ restText l.rest }) ++ _ = _
  rw [hv, show depth l.column [] = 0 from rfl, m0]
  rfl

/-! ## Layout of lines -/

theorem laidOut_rest (p : Nat) (past : List Nat) (line : Nat) (more : List Tok) (r : List (Nat × Str)) :
    ∀ (column : Nat), ∃ column', laidOut (wsMark (ι := ι)) none p past ⟨line, column⟩
        (tokMarks (placeRest line column r ++ more)) =
      (laidOut wsMark none p past ⟨line, column'⟩ (tokMarks more)).map (restMarks r ++ ·) := by
  induction r with
  | nil =>
    intro column
    refine ⟨column, ?_⟩
    show laidOut _ _ _ _ _ (tokMarks more) = _
    cases laidOut (wsMark (ι := ι)) none p past ⟨line, column⟩ (tokMarks more) <;> rfl
  | cons q r ih =>
    obtain ⟨n, s⟩ := q
    intro column
    obtain ⟨column', h⟩ := ih (column + n + s.length)
    refine ⟨column', ?_⟩
    show laidOut _ _ _ _ _ ((⟨⟨line, column + n⟩, ⟨line, column + n + s.length⟩⟩, s.map Mark.char) ::
      tokMarks (placeRest line (column + n + s.length) r ++ more)) = _
    rw [laidOut, gapBefore, if_pos rfl, if_pos rfl, Option.bind_some, h]
    cases laidOut (wsMark (ι := ι)) none p past ⟨line, column'⟩ (tokMarks more) with
    | none => rfl
    | some x =>
      show some _ = some _
      congr 1
      unfold restMarks
      rw [List.flatMap_cons]
      dsimp only
      by_cases hn : n = 0
      · rw [if_neg (by omega : ¬ column < column + n), if_pos hn]; simp
      · rw [if_pos (by omega : column < column + n), if_neg hn]; simp

theorem not_falls {c p : Nat} {past : List Nat} (h : Legal c p past) : ¬ Falls c p past := by
  intro hf
  rcases h with h | h | h
  · have := hf.1; omega
  · have := hf.1; omega
  · rw [hf.2] at h; cases h

theorem laidOut_lines (ls : List SrcLine) : ∀ (p : Nat) (past : List Nat) (line column : Nat),
    Offside (p :: past) ls → laidOut (wsMark (ι := ι)) none p past ⟨line, column⟩ (tokMarks (placeLines (line + 1) ls)) =
      some (tailMarks p past ls) := by
  induction ls with
  | nil => intro p past line column _; rfl
  | cons l ls ih =>
    intro p past line column ho
    obtain ⟨hl, ho⟩ := ho
    show laidOut _ _ _ _ _ ((⟨⟨line + 1 + l.above, l.column⟩, ⟨line + 1 + l.above, l.column + l.first.length⟩⟩,
      l.first.map Mark.char) :: tokMarks (placeRest (line + 1 + l.above) (l.column + l.first.length) l.rest ++
        placeLines (line + 1 + l.above + 1) ls)) = _
    have h1 : ¬ line = line + 1 + l.above := by omega
    have h2 : ¬ line + 1 + l.above < line := by omega
    rw [laidOut, gapBefore, if_neg h1, if_neg h1, if_neg h2, if_neg (not_falls hl), if_pos hl, Option.bind_some]
    obtain ⟨column', e⟩ := laidOut_rest (ι := ι) l.column (p :: past) (line + 1 + l.above)
      (placeLines (line + 1 + l.above + 1) ls) l.rest (l.column + l.first.length)
    rw [e, ih _ _ _ _ ho]
    show some _ = some _
    congr 1
    rw [tailMarks]
    have : decide (line + 1 + l.above - line > 1) = decide (0 < l.above) := by
      by_cases ha : 0 < l.above
      · rw [decide_eq_true ha, decide_eq_true (by omega)]
      · rw [decide_eq_false ha, decide_eq_false (by omega)]
    rw [this]

theorem block_lines (l : SrcLine) (ls : List SrcLine) (line : Nat) (h : Offside [] (l :: ls)) :
    block (wsMark (ι := ι)) none (tokMarks (placeLines line (l :: ls))) =
      some (l.first.map .char ++ (restMarks l.rest ++ tailMarks l.column [] ls)) := by
  show (laidOut wsMark none l.column [] ⟨line + l.above, l.column + l.first.length⟩
    (tokMarks (placeRest (line + l.above) (l.column + l.first.length) l.rest ++ placeLines (line + l.above + 1) ls))).map
      (l.first.map Mark.char ++ ·) = _
  obtain ⟨column', e⟩ := laidOut_rest (ι := ι) l.column [] (line + l.above)
    (placeLines (line + l.above + 1) ls) l.rest (l.column + l.first.length)
  rw [e, laidOut_lines ls _ _ _ _ h]
  rfl

/-! ## Tokens make plain calls -/

/-- Only calls of whitespace and texts. -/
def Simple (ss : List (Stmt ι E)) : Prop := ∀ s ∈ ss, ∃ c : Call ι, s = .call c ∧ ¬ EmptyCall c ∧
  ∀ i ∈ callItems c, isPlain i = true

theorem keeps_simple : Keeps (Simple (ι := ι) (E := E)) where
  nil := by intro s hs; cases hs
  append ha hb := by
    intro s hs
    rcases List.mem_append.1 hs with hs | hs
    · exact ha s hs
    · exact hb s hs
  lit t ht := by
    intro s hs
    cases List.mem_singleton.1 hs
    refine ⟨_, rfl, fun e => ht (by cases e; rfl), ?_⟩
    intro i hi
    cases List.mem_singleton.1 hi
    rfl
  ws w := by
    intro s hs
    cases List.mem_singleton.1 hs
    refine ⟨_, rfl, ?_, ?_⟩
    · cases w <;> exact fun e => by cases e
    · intro i hi
      cases w <;> (cases List.mem_singleton.1 hi; rfl)

theorem simple_tokens (ts : List Tok) : ∀ e e' : Enc ι E, Simple e.output → nodes e (tokens ts) = .ok e' →
    Simple e'.output := by
  induction ts with
  | nil => intro e e' h hn; cases hn; exact h
  | cons t ts ih =>
    intro e e' h hn
    obtain ⟨e1, h1, h2⟩ := ok_bind (x := node e (.tree t.1 t.2)) (f := fun e => nodes e (tokens ts)) hn
    exact ih e1 e' (full_encode keeps_simple h (by exact fun _ h => h) h1) h2

theorem simple_quote (ts : List Tok) (span : Option Cur) (r : Bool) (ss : List (Stmt ι E))
    (h : quote span (tokens ts) = .ok (r, ss)) : Simple ss := by
  obtain ⟨e, h1, h2⟩ := ok_bind (x := nodes (startEnc span) (tokens ts)) (f := Enc.intoOutput) h
  exact full_into keeps_simple (simple_tokens ts _ _ (full_start keeps_simple span) h1) h2

theorem run_simple (H : Host ι E Env) (ss : List (Stmt ι E)) (h : Simple ss) : ∀ (ρ : Env),
    (∀ c ∈ runBlock H ρ ss, ¬ EmptyCall c) ∧ ∀ i ∈ (runBlock H ρ ss).flatMap callItems, isPlain i = true := by
  induction ss with
  | nil => intro ρ; exact ⟨fun c hc => (by cases hc), fun i hi => (by cases hi)⟩
  | cons s ss ih =>
    intro ρ
    obtain ⟨c, rfl, h1, h2⟩ := h s (by simp)
    obtain ⟨i1, i2⟩ := ih (fun x hx => h x (by simp [hx])) ρ
    have e : runBlock H ρ (.call c :: ss) = c :: runBlock H ρ ss := rfl
    rw [e]
    refine ⟨fun d hd => ?_, fun i hi => ?_⟩
    · rcases List.mem_cons.1 hd with rfl | hd
      · exact h1
      · exact i1 d hd
    · rw [List.flatMap_cons] at hi
      rcases List.mem_append.1 hi with hi | hi
      · exact h2 i hi
      · exact i2 i hi

end Genco.Macro
