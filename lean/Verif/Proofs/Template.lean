import Verif.Proofs.Cut
import Verif.Spec.Template

/-!
# Templates, rendered
-/

set_option autoImplicit false

namespace Genco.Macro

open Spec Spec.MacroFile Spec.Template Tokens

variable {ι E Env : Type}

/-! ## Layout of lines of pieces -/

section Layout

variable {α : Type}

/-- A line of pieces. -/
structure PLine (α : Type) where
  above : Nat
  column : Nat
  width : Nat
  first : List α
  rest : List (Nat × Nat × List α)

def pRest (line column : Nat) : List (Nat × Nat × List α) → List (Cur × List α)
  | [] => []
  | (n, w, a) :: r => (⟨⟨line, column + n⟩, ⟨line, column + n + w⟩⟩, a) :: pRest line (column + n + w) r

def pLines (line : Nat) : List (PLine α) → List (Cur × List α)
  | [] => []
  | l :: ls => (⟨⟨line + l.above, l.column⟩, ⟨line + l.above, l.column + l.width⟩⟩, l.first) ::
    pRest (line + l.above) (l.column + l.width) l.rest ++ pLines (line + l.above + 1) ls

/-- What is done behind the first piece of a line. -/
def restOut (ws : WsCall → α) (r : List (Nat × Nat × List α)) : List α :=
  r.flatMap (fun p => (if p.1 = 0 then [] else [ws .space]) ++ p.2.2)

/-- What is done below a line. -/
def tailOut (ws : WsCall → α) (p : Nat) (past : List Nat) : List (PLine α) → List α
  | [] => (List.replicate (depth p past) WsCall.unindent).map ws
  | l :: ls => (breakCalls (depth p past) (depth l.column (p :: past)) (decide (0 < l.above))).map ws ++
      l.first ++ (restOut ws l.rest ++ tailOut ws l.column (p :: past) ls)

def pOffside : List Nat → List (PLine α) → Prop
  | _, [] => True
  | [], l :: ls => pOffside [l.column] ls
  | p :: past, l :: ls => Legal l.column p past ∧ pOffside (l.column :: p :: past) ls

theorem laidOut_pRest (ws : WsCall → α) (p : Nat) (past : List Nat) (line : Nat) (more : List (Cur × List α))
    (r : List (Nat × Nat × List α)) :
    ∀ (column : Nat), ∃ column', laidOut ws none p past ⟨line, column⟩ (pRest line column r ++ more) =
      (laidOut ws none p past ⟨line, column'⟩ more).map (restOut ws r ++ ·) := by
  induction r with
  | nil =>
    intro column
    refine ⟨column, ?_⟩
    show laidOut _ _ _ _ _ more = _
    cases laidOut ws none p past ⟨line, column⟩ more <;> rfl
  | cons q r ih =>
    obtain ⟨n, w, a⟩ := q
    intro column
    obtain ⟨column', h⟩ := ih (column + n + w)
    refine ⟨column', ?_⟩
    show laidOut _ _ _ _ _ ((⟨⟨line, column + n⟩, ⟨line, column + n + w⟩⟩, a) ::
      (pRest line (column + n + w) r ++ more)) = _
    rw [laidOut, gapBefore, if_pos rfl, if_pos rfl, Option.bind_some, h]
    cases laidOut ws none p past ⟨line, column'⟩ more with
    | none => rfl
    | some x =>
      show some _ = some _
      congr 1
      unfold restOut
      rw [List.flatMap_cons]
      dsimp only
      by_cases hn : n = 0
      · rw [if_neg (by omega : ¬ column < column + n), if_pos hn]; simp
      · rw [if_pos (by omega : column < column + n), if_neg hn]; simp

theorem laidOut_pLines (ws : WsCall → α) (ls : List (PLine α)) : ∀ (p : Nat) (past : List Nat) (line column : Nat),
    pOffside (p :: past) ls → laidOut ws none p past ⟨line, column⟩ (pLines (line + 1) ls) =
      some (tailOut ws p past ls) := by
  induction ls with
  | nil => intro p past line column _; rfl
  | cons l ls ih =>
    intro p past line column ho
    obtain ⟨hl, ho⟩ := ho
    show laidOut _ _ _ _ _ ((⟨⟨line + 1 + l.above, l.column⟩, ⟨line + 1 + l.above, l.column + l.width⟩⟩,
      l.first) :: (pRest (line + 1 + l.above) (l.column + l.width) l.rest ++
        pLines (line + 1 + l.above + 1) ls)) = _
    have h1 : ¬ line = line + 1 + l.above := by omega
    have h2 : ¬ line + 1 + l.above < line := by omega
    rw [laidOut, gapBefore, if_neg h1, if_neg h1, if_neg h2, if_neg (not_falls hl), if_pos hl, Option.bind_some]
    obtain ⟨column', e⟩ := laidOut_pRest ws l.column (p :: past) (line + 1 + l.above)
      (pLines (line + 1 + l.above + 1) ls) l.rest (l.column + l.width)
    rw [e, ih _ _ _ _ ho]
    show some _ = some _
    congr 1
    rw [tailOut]
    have : decide (line + 1 + l.above - line > 1) = decide (0 < l.above) := by
      by_cases ha : 0 < l.above
      · rw [decide_eq_true ha, decide_eq_true (by omega)]
      · rw [decide_eq_false ha, decide_eq_false (by omega)]
    rw [this]

theorem block_pLines (ws : WsCall → α) (l : PLine α) (ls : List (PLine α)) (line : Nat) (h : pOffside [] (l :: ls)) :
    block ws none (pLines line (l :: ls)) =
      some (l.first ++ (restOut ws l.rest ++ tailOut ws l.column [] ls)) := by
  show (laidOut ws none l.column [] ⟨line + l.above, l.column + l.width⟩
    (pRest (line + l.above) (l.column + l.width) l.rest ++ pLines (line + l.above + 1) ls)).map (l.first ++ ·) = _
  obtain ⟨column', e⟩ := laidOut_pRest ws l.column [] (line + l.above)
    (pLines (line + l.above + 1) ls) l.rest (l.column + l.width)
  rw [e, laidOut_pLines ws ls _ _ _ _ h]
  rfl

end Layout

/-! ## Environments -/

theorem behind_marks (ms : List (Mark ι)) (ρ : Env) : behind ρ (ms.map Step.mark) = ρ := by
  induction ms with
  | nil => rfl
  | cons m ms ih => exact ih

theorem behind_evs (H : Host ι E Env) (ss : List (Stmt ι E)) : ∀ (ρ : Env),
    behind ρ ((evs ss).map (evAct H)) = leave H ρ ss := by
  induction ss with
  | nil => intro ρ; rfl
  | cons s ss ih =>
    intro ρ
    have gen : evOf s = [.stmt s] → behind ρ ((evs (s :: ss)).map (evAct H)) = leave H ρ (s :: ss) := by
      intro h
      rw [show evs (s :: ss) = evOf s ++ evs ss from rfl, h]
      show behind (runStmt H ρ s).1 ((evs ss).map (evAct H)) = _
      rw [ih]
      cases s <;> simp [runStmt, leave]
    cases s with
    | call c =>
      cases c with
      | append i =>
        cases i with
        | literal l =>
          cases l with
          | «static» t =>
            rw [show evs (Stmt.call (ι := ι) (E := E) (.append (.literal (.static t))) :: ss) =
              t.map .char ++ evs ss from rfl, List.map_append, evs_chars, behind_append]
            have : Step.text (ι := ι) (Env := Env) t = (t.map Mark.char).map Step.mark := by
              rw [List.map_map]; rfl
            rw [this, behind_marks, ih]
            rfl
          | _ => exact gen rfl
        | _ => exact gen rfl
      | _ => exact gen rfl
    | scope b c =>
      cases b with
      | true => exact gen rfl
      | false =>
        rw [show evs (Stmt.scope (ι := ι) false c :: ss) = evs ss from rfl, ih]
        rfl
    | _ => exact gen rfl

/-! ## Steps of slots -/

/-- A node in one piece. -/
theorem stepOf_stands (H : Host ι E Env) (n : Node E) (cur : Cur) (h : standsAt n = some cur)
    (qs : List (Cur × List (Step ι Env))) (hq : stepOf H n = some qs) : ∃ as, qs = [(cur, as)] := by
  cases n <;> simp only [standsAt, Option.some.injEq, reduceCtorEq] at h <;> subst h <;>
    simp only [stepOf, Option.some.injEq, Option.bind_eq_bind, Option.bind_eq_some_iff] at hq
  all_goals first
    | exact ⟨_, hq.symm⟩
    | (obtain ⟨_, _, hq⟩ := hq; exact ⟨_, hq.symm⟩)
    | (obtain ⟨_, _, _, _, hq⟩ := hq; exact ⟨_, hq.symm⟩)
    | (obtain ⟨_, _, _, _, _, _, _, _, hq⟩ := hq; exact ⟨_, hq.symm⟩)

/-- The calls of a slot. -/
def slotCalls (C : (Cur → Node E) → List (Call ι)) : Slot E → List (Call ι)
  | .word s => [.append (.literal (.static s))]
  | .hole _ n => C n

/-- A slot that does what it should. -/
def SlotFills (H : Host ι E Env) (ρ : Env) (C : (Cur → Node E) → List (Call ι)) : Slot E → Prop
  | .word s => s ≠ []
  | .hole _ n => Fills H ρ n (C n)

theorem stepOf_slot (H : Host ι E Env) (ρ : Env) (C : (Cur → Node E) → List (Call ι)) (s : Slot E)
    (h : SlotFills H ρ C s) (cur : Cur) : ∃ as, stepOf H (s.node cur) = some [(cur, as)] ∧
      perform ρ as = marks (slotCalls C s) ∧ behind ρ as = ρ := by
  cases s with
  | word s =>
    have e : Step.text (ι := ι) (Env := Env) s = (s.map Mark.char).map Step.mark := by rw [List.map_map]; rfl
    refine ⟨_, rfl, ?_, ?_⟩
    · rw [e, perform_marks]
      exact (List.append_nil _).symm
    · rw [e, behind_marks]
  | hole w n =>
    obtain ⟨r, ss, hs, hr, hl⟩ := h.alone cur
    obtain ⟨q1, q2⟩ := quote_ok H none (nodes_ok H [n cur])
    show ∃ as, stepOf H (n cur) = _ ∧ _
    have hst : stepsOf H [n cur] = (stepOf H (n cur)).map (· ++ []) := by
      rw [stepsOf]
      cases stepOf H (n cur) <;> rfl
    cases hq : stepOf H (n cur) with
    | none =>
      rw [hst, hq] at q1
      obtain ⟨x, hx⟩ := q1 rfl
      rw [show Macro.quote (ι := ι) none [n cur] = (nodes (startEnc none) [n cur]).bind Enc.intoOutput from rfl, hx] at hs
      cases hs
    | some qs =>
      obtain ⟨as, rfl⟩ := stepOf_stands H _ cur (h.stands cur) qs hq
      rw [hst, hq] at q2
      have e : (Option.map (· ++ []) (some [(cur, as)])).bind
          (block (Step.ws (ι := ι) (Env := Env)) (Option.map inner none)) = some as := by
        show some (as ++ []) = _
        rw [List.append_nil]
      obtain ⟨ss', hs', he⟩ := q2 as e
      rw [show Macro.quote (ι := ι) none [n cur] = (nodes (startEnc none) [n cur]).bind Enc.intoOutput from rfl, hs'] at hs
      cases hs
      refine ⟨as, rfl, ?_, ?_⟩
      · rw [← he, perform_evs, hr]; rfl
      · rw [← he, behind_evs, hl]

/-- Steps for a slot. -/
def Does (ρ : Env) (C : (Cur → Node E) → List (Call ι)) (s : Slot E) (w : Nat) (as : List (Step ι Env)) : Prop :=
  w = s.width ∧ perform ρ as = marks (slotCalls C s) ∧ behind ρ as = ρ

inductive DoesRest (ρ : Env) (C : (Cur → Node E) → List (Call ι)) :
    List (Nat × Slot E) → List (Nat × Nat × List (Step ι Env)) → Prop
  | nil : DoesRest ρ C [] []
  | cons {n s w as r q} : Does ρ C s w as → DoesRest ρ C r q → DoesRest ρ C ((n, s) :: r) ((n, w, as) :: q)

inductive DoesRows (ρ : Env) (C : (Cur → Node E) → List (Call ι)) :
    List (Row E) → List (PLine (Step ι Env)) → Prop
  | nil : DoesRows ρ C [] []
  | cons {l p ls ps} : p.above = l.above → p.column = l.column → Does ρ C l.first p.width p.first →
      DoesRest ρ C l.rest p.rest → DoesRows ρ C ls ps → DoesRows ρ C (l :: ls) (p :: ps)

theorem stepsOf_cons (H : Host ι E Env) (n : Node E) (ns : List (Node E)) (a b : List (Cur × List (Step ι Env)))
    (ha : stepOf H n = some a) (hb : stepsOf H ns = some b) : stepsOf H (n :: ns) = some (a ++ b) := by
  rw [stepsOf, ha, hb]; rfl

theorem stepsOf_concat (H : Host ι E Env) (ns ms : List (Node E)) (a b : List (Cur × List (Step ι Env)))
    (ha : stepsOf H ns = some a) (hb : stepsOf H ms = some b) : stepsOf H (ns ++ ms) = some (a ++ b) := by
  induction ns generalizing a with
  | nil => cases ha; exact hb
  | cons n ns ih =>
    rw [stepsOf] at ha
    cases h1 : stepOf H n with
    | none => rw [h1] at ha; cases ha
    | some x =>
      cases h2 : stepsOf H ns with
      | none => rw [h1, h2] at ha; cases ha
      | some y =>
        rw [h1, h2] at ha
        cases ha
        have := stepsOf_cons H n (ns ++ ms) x (y ++ b) h1 (ih y h2)
        rw [List.cons_append, this, List.append_assoc]

theorem stepsOf_rest (H : Host ι E Env) (ρ : Env) (C : (Cur → Node E) → List (Call ι)) (line : Nat)
    (r : List (Nat × Slot E)) (h : ∀ p ∈ r, SlotFills H ρ C p.2) :
    ∀ column, ∃ q, stepsOf H (placeRest line column r) = some (pRest line column q) ∧ DoesRest ρ C r q := by
  induction r with
  | nil => intro column; exact ⟨[], rfl, .nil⟩
  | cons p r ih =>
    obtain ⟨n, s⟩ := p
    intro column
    obtain ⟨q, h1, h2⟩ := ih (fun p hp => h p (by simp [hp])) (column + n + s.width)
    obtain ⟨as, a1, a2, a3⟩ := stepOf_slot H ρ C s (h (n, s) (by simp))
      ⟨⟨line, column + n⟩, ⟨line, column + n + s.width⟩⟩
    exact ⟨(n, s.width, as) :: q, stepsOf_cons H _ _ _ _ a1 h1, .cons ⟨rfl, a2, a3⟩ h2⟩

theorem stepsOf_rows (H : Host ι E Env) (ρ : Env) (C : (Cur → Node E) → List (Call ι))
    (ls : List (Row E)) (h : ∀ l ∈ ls, ∀ s ∈ l.slots, SlotFills H ρ C s) :
    ∀ line, ∃ ps, stepsOf H (placeRows line ls) = some (pLines line ps) ∧ DoesRows ρ C ls ps := by
  induction ls with
  | nil => intro line; exact ⟨[], rfl, .nil⟩
  | cons l ls ih =>
    intro line
    obtain ⟨ps, h1, h2⟩ := ih (fun x hx => h x (by simp [hx])) (line + l.above + 1)
    obtain ⟨as, a1, a2, a3⟩ := stepOf_slot H ρ C l.first (h l (by simp) _ (by simp [Row.slots]))
      ⟨⟨line + l.above, l.column⟩, ⟨line + l.above, l.column + l.first.width⟩⟩
    obtain ⟨q, q1, q2⟩ := stepsOf_rest H ρ C (line + l.above) l.rest
      (fun p hp => h l (by simp) _ (by simp only [Row.slots, List.mem_cons, List.mem_map]; exact .inr ⟨p, hp, rfl⟩))
      (l.column + l.first.width)
    exact ⟨⟨l.above, l.column, l.first.width, as, q⟩ :: ps,
      (stepsOf_cons H _ _ _ _ a1 (stepsOf_concat H _ _ _ _ q1 h1) : _), .cons rfl rfl ⟨rfl, a2, a3⟩ q2 h2⟩

/-! ## Calls of templates -/

def restCalls (C : (Cur → Node E) → List (Call ι)) (r : List (Nat × Slot E)) : List (Call ι) :=
  r.flatMap (fun p => (if p.1 = 0 then [] else [.space]) ++ slotCalls C p.2)

def tailCalls (C : (Cur → Node E) → List (Call ι)) (p : Nat) (past : List Nat) : List (Row E) → List (Call ι)
  | [] => (List.replicate (depth p past) WsCall.unindent).map WsCall.call
  | l :: ls => (breakCalls (depth p past) (depth l.column (p :: past)) (decide (0 < l.above))).map WsCall.call ++
      (slotCalls C l.first ++ (restCalls C l.rest ++ tailCalls C l.column (p :: past) ls))

theorem perform_gap (w : List WsCall) (ρ : Env) : perform (ι := ι) ρ (w.map Step.ws) = marks (w.map WsCall.call) := by
  induction w with
  | nil => rfl
  | cons c w ih =>
    show [Mark.call c.call] ++ perform ρ (w.map Step.ws) = markOf c.call ++ marks (w.map WsCall.call)
    rw [ih]
    cases c <;> rfl

theorem perform_rest (ρ : Env) (C : (Cur → Node E) → List (Call ι)) {r : List (Nat × Slot E)}
    {q : List (Nat × Nat × List (Step ι Env))} (h : DoesRest ρ C r q) :
    perform ρ (restOut Step.ws q) = marks (restCalls C r) ∧ behind ρ (restOut Step.ws q) = ρ := by
  induction h with
  | nil => exact ⟨rfl, rfl⟩
  | @cons n s w as r q hd _ ih =>
    obtain ⟨-, h1, h2⟩ := hd
    have e : restOut (Step.ws (ι := ι) (Env := Env)) ((n, w, as) :: q) =
      ((if n = 0 then [] else [WsCall.space]).map Step.ws ++ as) ++ restOut Step.ws q := by
      unfold restOut
      rw [List.flatMap_cons]
      by_cases hn : n = 0 <;> simp [hn]
    have e' : restCalls C ((n, s) :: r) =
      ((if n = 0 then [] else [WsCall.space]).map WsCall.call ++ slotCalls C s) ++ restCalls C r := by
      unfold restCalls
      rw [List.flatMap_cons]
      by_cases hn : n = 0 <;> simp [hn, WsCall.call]
    rw [e, e', perform_append, perform_append, behind_append, behind_ws, h1, h2, perform_gap,
      marks_append, marks_append, ih.1]
    refine ⟨rfl, ?_⟩
    rw [behind_append, behind_append, behind_ws, h2, ih.2]

theorem perform_tail (ρ : Env) (C : (Cur → Node E) → List (Call ι)) {ls : List (Row E)}
    {ps : List (PLine (Step ι Env))} (h : DoesRows ρ C ls ps) : ∀ p past,
    perform ρ (tailOut Step.ws p past ps) = marks (tailCalls C p past ls) ∧
      behind ρ (tailOut Step.ws p past ps) = ρ := by
  induction h with
  | nil => intro p past; exact ⟨perform_gap _ _, behind_ws _ _⟩
  | @cons l q ls ps ha hc hd hr _ ih =>
    intro p past
    obtain ⟨-, h1, h2⟩ := hd
    obtain ⟨r1, r2⟩ := perform_rest ρ C hr
    rw [tailOut, tailCalls, ha, hc, List.append_assoc, perform_append, perform_append, perform_append, behind_ws, h1, h2,
      r1, r2, (ih _ _).1, perform_gap, marks_append, marks_append, marks_append]
    refine ⟨rfl, ?_⟩
    rw [behind_append, behind_append, behind_append, behind_ws, h2, r2, (ih _ _).2]

theorem offside_rows {ρ : Env} {C : (Cur → Node E) → List (Call ι)} {ls : List (Row E)}
    {ps : List (PLine (Step ι Env))} (h : DoesRows ρ C ls ps) : ∀ past, Template.Offside past ls → pOffside past ps := by
  induction h with
  | nil => intro past _; cases past <;> trivial
  | @cons l q ls ps ha hc hd hr _ ih =>
    intro past ho
    cases past with
    | nil => rw [pOffside, hc]; exact ih _ ho
    | cons p past => rw [pOffside, hc]; exact ⟨ho.1, ih _ ho.2⟩

/-! ## Rendering -/

/-- The code that items make when they are in a stream. -/
def CodeOf (l : List (Item ι)) (c : Code ι) : Prop := c.plain = true ∧ letters (norm l) = letters c.items

theorem toVec_codeOf (L : Lang ι) (hQ : HomQuote L) (cfg : Config) (cs : List (Call ι)) (c : Code ι)
    (hE : Uniform L (cs.flatMap callItems)) (h : CodeOf (cs.flatMap callItems) c) :
    toVec L cfg (history cs).items = some (vecActs cfg .new .new (c.acts L cfg)).intoVec := by
  obtain ⟨h1, h2⟩ := h
  rw [norm_history, letters_erase] at h2
  have hU : Uniform L (history cs).items := by
    refine hE.imp id (fun h => (opens_letters _).1 ?_)
    rw [letters_history]
    exact opens_norm ((opens_letters _).2 h)
  rw [toVec_letters L hQ cfg _ _ hU h2, toVec_eq, resolveItems_code L cfg c h1]
  rfl

theorem ws_items_plain (w : List WsCall) : ∀ i ∈ (gapItems w : List (Item ι)), isPlain i = true := by
  intro i hi
  obtain ⟨c, -, hi⟩ := List.mem_flatMap.1 hi
  cases c <;> (cases List.mem_singleton.1 hi; rfl)

/-- Plain items as code. -/
def plainCode : List (Item ι) → Code ι
  | [] => .nil
  | i :: l => .item i (plainCode l)

theorem plainCode_items (l : List (Item ι)) : (plainCode l).items = l := by
  induction l with
  | nil => rfl
  | cons i l ih => exact congrArg (i :: ·) ih

theorem plainCode_plain (l : List (Item ι)) : (plainCode l).plain = l.all isPlain := by
  induction l with
  | nil => rfl
  | cons i l ih =>
    show (isPlain i && (plainCode l).plain) = _
    rw [ih]; rfl

theorem plainCode_acts (L : Lang ι) (cfg : Config) (l : List (Item ι)) :
    (plainCode l).acts L cfg = l.flatMap (plainActs L.langItem) := by
  induction l with
  | nil => rfl
  | cons i l ih =>
    show plainActs L.langItem i ++ (plainCode l).acts L cfg = _
    rw [ih]; rfl

/-- A gap as code. -/
def gapCode (w : List WsCall) : Code ι := plainCode (norm (gapItems w))

theorem gapCode_plain (w : List WsCall) : (gapCode (ι := ι) w).plain = true := by
  rw [gapCode, plainCode_plain, List.all_eq_true]
  intro i hi
  obtain ⟨j, hj, rfl⟩ := List.mem_map.1 hi
  have := plain_fromIter _ (ws_items_plain w) j hj
  cases j <;> first | rfl | exact this

theorem gapCode_acts (L : Lang ι) (cfg : Config) (w : List WsCall) :
    (gapCode w).acts L cfg = actsFor L.langItem (gapItems w) := plainCode_acts L cfg _

theorem codeOf_gap (w : List WsCall) : CodeOf (gapItems (ι := ι) w) (gapCode w) :=
  ⟨gapCode_plain w, by rw [gapCode, plainCode_items]⟩

theorem norm_block {L : Lang ι} {cfg : Config} {cs : List (Call ι)} (h : Template.Block L cfg cs) (w l : List (Item ι)) :
    norm (w ++ (cs.flatMap callItems ++ l)) = norm w ++ ((history cs).items.map erase ++ norm l) := by
  obtain ⟨r, z, e, hz⟩ := h.last
  obtain ⟨x, q, e', hx⟩ := h.first
  have n0 : norm ([] : List (Item ι)) = [] := rfl
  rw [← norm_history]
  have n1 : norm (w ++ (cs.flatMap callItems ++ l)) = norm (w ++ cs.flatMap callItems) ++ norm l := by
    rw [e]
    have e1 : w ++ (r ++ [z] ++ l) = (w ++ r) ++ z :: l := by simp
    have e2 : w ++ (r ++ [z]) = (w ++ r) ++ z :: [] := by simp
    rw [e1, e2, norm_split _ _ _ hz, norm_split _ _ _ hz, n0]
    simp
  have n2 : norm (w ++ cs.flatMap callItems) = norm w ++ norm (cs.flatMap callItems) := by
    rw [e', norm_split _ _ _ hx]
    have := norm_split [] q x hx
    rw [List.nil_append, n0, List.nil_append] at this
    rw [this]
  rw [n1, n2, List.append_assoc]

theorem codeOf_block {L : Lang ι} {cfg : Config} {cs : List (Call ι)} (h : Template.Block L cfg cs) {c : Code ι}
    (hp : c.plain = true) (hc : letters (history cs).items = letters c.items) (w : List WsCall) {l : List (Item ι)}
    {d : Code ι} (hd : CodeOf l d) :
    CodeOf (gapItems w ++ (cs.flatMap callItems ++ l)) ((gapCode w).append (c.append d)) := by
  obtain ⟨h1, h2⟩ := hd
  refine ⟨by rw [append_plain, append_plain, gapCode_plain, hp, h1]; rfl, ?_⟩
  rw [norm_block h, append_items, append_items, letters_append, letters_append, letters_append, letters_append,
    letters_erase, hc, h2, gapCode, plainCode_items]

/-- The last line of code on its own is not blank. -/
theorem own_last (cfg : Config) (B : List Act) (hB : Whole B) :
    ∃ t b, ownLines cfg B = t ++ [b] ∧ b ≠ [] := by
  obtain ⟨s, r, hB1, hs⟩ := hB.first
  have hin : ∀ p, p <+: r → 0 ≤ (p.map actInd).sum := by
    intro p hp
    have := hB.inside (.text s :: p) (by rw [hB1]; simpa using hp)
    simpa [actInd] using this
  have z : marginText cfg 0 = [] := by unfold marginText; cases cfg.indentation <;> simp
  have m0 : Moved cfg 0 [] ⟨.none, 0, 0⟩ ⟨.none, 0, 0⟩ ⟨s, []⟩ ⟨s, []⟩ :=
    ⟨rfl, rfl, by simp, by simp, hs, by simp [movedIn, hs, z], by simp⟩
  have m := moved_acts cfg 0 _ r _ _ _ _ m0 (by simpa using hin)
  have f3 : vecActs cfg .new .new B = vecActs cfg ⟨.none, 0, 0⟩ ⟨s, []⟩ r := by
    rw [hB1, vecActs]
    simp [actSt, vecAct, hs, LSt.flushed, flushPad, LSt.new, VecState.new, z]
  exact ⟨_, _, by rw [ownLines, f3]; rfl, m.buf⟩

theorem vec_below (cfg : Config) (t : List Str) (acts : List Act) : ∀ (st : LSt) (v : VecState),
    (vecActs cfg st ⟨v.lineBuffer, t ++ v.target⟩ acts).intoVec = t ++ (vecActs cfg st v acts).intoVec := by
  induction acts with
  | nil => intro st v; simp [vecActs, VecState.intoVec]
  | cons a r ih =>
    intro st v
    rw [vecActs, vecActs]
    rw [← ih]
    congr 2
    obtain ⟨b, u⟩ := v
    cases a with
    | text s =>
      by_cases hs : s = []
      · simp [vecAct, hs]
      · cases hl : st.line <;> simp [vecAct, hs, hl]
    | _ => rfl

/-- Code behind other text on the line. -/
theorem vec_mid (cfg : Config) (B : List Act) (hB : Whole B) (n k : Nat) (v : VecState) (b : Str) (bs : List Str)
    (hb : ownLines cfg B = b :: bs) :
    actsSt ⟨.none, n, (k : Int)⟩ B = ⟨.none, 0, (k : Int)⟩ ∧
    (vecActs cfg ⟨.none, n, (k : Int)⟩ v B).intoVec =
      v.target ++ ((v.lineBuffer ++ List.replicate n ' ' ++ b) :: bs.map (movedIn cfg k)) := by
  obtain ⟨s, r, hB1, hs⟩ := hB.first
  have hin : ∀ p, p <+: r → 0 ≤ (p.map actInd).sum := by
    intro p hp
    have := hB.inside (.text s :: p) (by rw [hB1]; simpa using hp)
    simpa [actInd] using this
  have z : marginText cfg 0 = [] := by unfold marginText; cases cfg.indentation <;> simp
  have g1 := actsSt_last ⟨.none, n, (k : Int)⟩ B hB.last
  have g2 := actsSt_indent ⟨.none, n, (k : Int)⟩ B
  rw [hB.level] at g2
  have m0 : Moved cfg k [] ⟨.none, 0, 0⟩ ⟨.none, 0, (k : Int)⟩ ⟨s, []⟩ ⟨marginText cfg k ++ s, []⟩ :=
    ⟨rfl, rfl, by simp, by simp, hs, by simp [movedIn, hs], by simp⟩
  have m := moved_acts cfg k _ r _ _ _ _ m0 (by simpa using hin)
  have f3 : vecActs cfg .new .new B = vecActs cfg ⟨.none, 0, 0⟩ ⟨s, []⟩ r := by
    rw [hB1, vecActs]
    simp [actSt, vecAct, hs, LSt.flushed, flushPad, LSt.new, VecState.new, z]
  have f2 : vecActs cfg ⟨.none, n, (k : Int)⟩ v B = vecActs cfg ⟨.none, 0, (k : Int)⟩
      ⟨v.lineBuffer ++ List.replicate n ' ' ++ s, v.target ++ []⟩ r := by
    rw [hB1, vecActs]
    simp [actSt, vecAct, hs, LSt.flushed, flushPad]
  constructor
  · generalize actsSt ⟨.none, n, (k : Int)⟩ B = x at g1 g2
    obtain ⟨a, b, c⟩ := x
    dsimp only at g1 g2
    rw [g1.1, g1.2, g2, Int.add_zero]
  · have e1 : (vecActs cfg ⟨.none, 0, (k : Int)⟩ ⟨marginText cfg k ++ s, []⟩ r).intoVec =
        (b :: bs).map (movedIn cfg k) := by
      rw [← hb, ownLines, f3, VecState.intoVec, m.buf', m.target]
      simp [VecState.intoVec]
    have e2 := vec_onFirst cfg (marginText cfg k) r ⟨.none, 0, (k : Int)⟩ ⟨s, []⟩ ⟨marginText cfg k ++ s, []⟩ rfl
    have e3 := vec_onFirst cfg (v.lineBuffer ++ List.replicate n ' ') r ⟨.none, 0, (k : Int)⟩ ⟨s, []⟩
      ⟨v.lineBuffer ++ List.replicate n ' ' ++ s, []⟩ rfl
    have e4 := vec_below cfg v.target r ⟨.none, 0, (k : Int)⟩ ⟨v.lineBuffer ++ List.replicate n ' ' ++ s, []⟩
    rw [f2, e4, e3]
    rw [e1] at e2
    have hfirst : b ≠ [] := by
      have h0 := vec_onFirst cfg s r ⟨.none, 0, 0⟩ ⟨[], []⟩ ⟨s, []⟩ (by simp [VecState.intoVec, onFirst])
      rw [ownLines, f3, h0] at hb
      cases hv : (vecActs cfg ⟨.none, 0, 0⟩ ⟨[], []⟩ r).intoVec with
      | nil => rw [hv] at hb; cases hb
      | cons x y =>
        rw [hv] at hb
        cases hb
        simp [hs]
    cases hv : (vecActs cfg ⟨.none, 0, (k : Int)⟩ ⟨s, []⟩ r).intoVec with
    | nil => exact absurd hv (intoVec_ne _)
    | cons x y =>
      rw [hv] at e2
      simp only [List.map_cons, movedIn, hfirst, if_false, onFirst, List.cons.injEq, List.append_cancel_left_eq] at e2
      obtain ⟨rfl, e2⟩ := e2
      rw [onFirst, ← e2]

/-! ## Levels -/

/-- From a level to another without going further out than the margin. -/
def Lev (k : Nat) (A : List Act) (k' : Nat) : Prop :=
  (k : Int) + (A.map actInd).sum = k' ∧ ∀ p, p <+: A → 0 ≤ (k : Int) + (p.map actInd).sum

theorem Lev.append {k m n : Nat} {A B : List Act} (ha : Lev k A m) (hb : Lev m B n) : Lev k (A ++ B) n := by
  obtain ⟨a1, a2⟩ := ha
  obtain ⟨b1, b2⟩ := hb
  refine ⟨by rw [List.map_append, List.sum_append]; omega, fun p hp => ?_⟩
  rcases List.prefix_or_prefix_of_prefix hp (List.prefix_append A B) with h | ⟨q, rfl⟩
  · exact a2 p h
  · have := b2 q ((List.prefix_append_right_inj A).1 hp)
    rw [List.map_append, List.sum_append]
    omega

theorem lev_whole {B : List Act} (h : Whole B) (k : Nat) : Lev k B k := by
  refine ⟨by rw [h.level]; omega, fun p hp => ?_⟩
  have := h.inside p hp
  omega

theorem lev_single (k : Nat) (a : Act) (k' : Nat) (h : (k : Int) + actInd a = k') : Lev k [a] k' := by
  refine ⟨by simpa using h, fun p hp => ?_⟩
  rcases List.prefix_cons_iff.1 hp with rfl | ⟨q, rfl, hq⟩
  · simp
  · cases List.prefix_nil.1 hq
    have : ([a].map actInd).sum = actInd a := by simp
    omega

theorem lev_break (f : ι → List Str) (old new : Nat) (hn : new ≤ old + 1) (blank : Bool) :
    Lev old (seen (actsFor f (gapItems (breakCalls old new blank)))) new := by
  unfold breakCalls
  by_cases h1 : old < new
  · have : new = old + 1 := by omega
    subst this
    rw [if_pos h1]
    cases blank
    · exact lev_single old (.indent 1) (old + 1) (by simp [actInd])
    · exact (lev_single old (.indent 1) (old + 1) (by simp [actInd])).append
        (lev_single (old + 1) .line (old + 1) (by simp [actInd]))
  · rw [if_neg h1]
    by_cases h2 : old = new
    · subst h2
      rw [if_pos rfl]
      cases blank
      · exact lev_single old .push old (by simp [actInd])
      · exact lev_single old .line old (by simp [actInd])
    · rw [if_neg h2]
      obtain ⟨n, hn⟩ : ∃ n, old - new = n + 1 := ⟨old - new - 1, by omega⟩
      rw [hn, acts_unindents]
      cases blank
      · exact lev_single old (.indent _) new (by simp only [actInd]; omega)
      · exact (lev_single old (.indent (-((n : Int) + 1))) new (by simp only [actInd]; omega)).append
          (lev_single new .line new (by simp [actInd]))

/-- Nothing, or the end is visible. -/
def Ends (A : List Act) : Prop := A = [] ∨ ∃ r s, A = r ++ [.text s] ∧ s ≠ []

theorem Ends.append {A B : List Act} (ha : Ends A) (hb : Ends B) : Ends (A ++ B) := by
  rcases hb with rfl | ⟨r, s, rfl, hs⟩
  · rwa [List.append_nil]
  · exact .inr ⟨A ++ r, s, by simp, hs⟩

theorem ends_block {A B D : List Act} (hB : Whole B) (hD : Ends D) : Ends (A ++ (B ++ D)) := by
  obtain ⟨r, s, e, hs⟩ := hB.last
  have : Ends (A ++ B) := .inr ⟨A ++ r, s, by rw [e]; simp, hs⟩
  rw [← List.append_assoc]
  exact this.append hD

/-- A slot whose calls make a block with the given lines. -/
structure SlotOk (L : Lang ι) (cfg : Config) (C : (Cur → Node E) → List (Call ι)) (V : (Cur → Node E) → List Str)
    (s : Slot E) : Prop where
  block : Template.Block L cfg (slotCalls C s)
  uniform : Uniform L ((slotCalls C s).flatMap callItems)
  lines : toVec L cfg (history (slotCalls C s)).items = some (s.lines V)

theorem SlotOk.code {L : Lang ι} (hQ : HomQuote L) {cfg : Config} {C : (Cur → Node E) → List (Call ι)}
    {V : (Cur → Node E) → List Str} {s : Slot E} (h : SlotOk L cfg C V s) :
    ∃ c : Code ι, c.plain = true ∧ letters (history (slotCalls C s)).items = letters c.items ∧
      Whole (seen (c.acts L cfg)) ∧ ownLines cfg (seen (c.acts L cfg)) = s.lines V := by
  obtain ⟨c, h1, h2, h3⟩ := h.block.code
  refine ⟨c, h1, h2, h3, ?_⟩
  have := h.lines
  rw [toVec_codeOf L hQ cfg _ c h.uniform ⟨h1, by rw [norm_history, letters_erase, h2]⟩] at this
  rw [ownLines_seen]
  exact Option.some.inj this

theorem seam_moved (cfg : Config) (k : Nat) (t : List Str) (a s b : Str) (bs : List Str) (ha : a ≠ []) :
    (seam (t ++ [a]) s (b :: bs)).map (movedIn cfg k) =
      t.map (movedIn cfg k) ++ (movedIn cfg k a ++ s ++ b) :: bs.map (movedIn cfg k) := by
  simp [seam, movedIn, ha]

/-- The slots of a line behind the first. -/
theorem vec_slots (L : Lang ι) (hQ : HomQuote L) (cfg : Config) (C : (Cur → Node E) → List (Call ι)) (V : (Cur → Node E) → List Str)
    (k : Nat) (r : List (Nat × Slot E)) (h : ∀ p ∈ r, SlotOk L cfg C V p.2) (l : List (Item ι)) (A : Code ι)
    (hA : CodeOf l A) : ∃ A', CodeOf ((restCalls C r).flatMap callItems ++ l) A' ∧
      (∀ (v : VecState) (up t : List Str) (a : Str), a ≠ [] →
        v.intoVec = up ++ (t ++ [a]).map (movedIn cfg k) →
        ∃ v', vecActs cfg ⟨.none, 0, (k : Int)⟩ v (A'.acts L cfg) = vecActs cfg ⟨.none, 0, (k : Int)⟩ v' (A.acts L cfg) ∧
          v'.intoVec = up ++ (r.foldl (fun a p => seam a (if p.1 = 0 then [] else [' ']) (p.2.lines V)) (t ++ [a])).map
            (movedIn cfg k)) ∧
      (∀ j j', Lev j (seen (A.acts L cfg)) j' → Lev j (seen (A'.acts L cfg)) j') ∧
      (Ends (seen (A.acts L cfg)) → Ends (seen (A'.acts L cfg))) := by
  induction r with
  | nil => exact ⟨A, hA, fun v up t a ha hv => ⟨v, rfl, hv⟩, fun _ _ h => h, fun h => h⟩
  | cons p r ih =>
    obtain ⟨n, s⟩ := p
    obtain ⟨A1, hA1, ih, il, ie⟩ := ih (fun p hp => h p (by simp [hp]))
    have hs := h (n, s) (by simp)
    obtain ⟨c, hp, hc, hw, ho⟩ := hs.code hQ
    have e : (restCalls C ((n, s) :: r)).flatMap callItems ++ l =
        gapItems (if n = 0 then [] else [WsCall.space]) ++ ((slotCalls C s).flatMap callItems ++
          ((restCalls C r).flatMap callItems ++ l)) := by
      unfold restCalls
      rw [List.flatMap_cons, List.flatMap_append, List.flatMap_append]
      by_cases hn : n = 0 <;> simp [hn, gapItems, WsCall.call]
    refine ⟨_, by rw [e]; exact codeOf_block hs.block hp hc _ hA1, ?_, ?_, ?_⟩
    rotate_left
    · intro j j' hj
      rw [append_acts, append_acts, gapCode_acts, seen_append, seen_append]
      refine Lev.append ?_ (Lev.append (lev_whole hw j) (il j j' hj))
      by_cases hn : n = 0
      · rw [if_pos hn]
        exact ⟨by simp [gapItems, actsFor_nil, seen], fun p hp => by
          cases List.prefix_nil.1 hp
          simp⟩
      · rw [if_neg hn]
        exact lev_single j .space j (by simp [actInd])
    · intro he
      rw [append_acts, append_acts, seen_append, seen_append]
      exact ends_block hw (ie he)
    intro v up t a ha hv
    obtain ⟨b, bs, hb⟩ : ∃ b bs, ownLines cfg (seen (c.acts L cfg)) = b :: bs := by
      cases hx : ownLines cfg (seen (c.acts L cfg)) with
      | nil => exact absurd hx (intoVec_ne _)
      | cons b bs => exact ⟨b, bs, rfl⟩
    obtain ⟨t', b', hl, hb'⟩ := own_last cfg _ hw
    have hst : actsSt ⟨.none, 0, (k : Int)⟩ (actsFor L.langItem (gapItems (if n = 0 then [] else [WsCall.space]))) =
        ⟨.none, if n = 0 then 0 else 1, (k : Int)⟩ := by
      by_cases hn : n = 0
      · rw [if_pos hn, if_pos hn]; rfl
      · rw [if_neg hn, if_neg hn]; rfl
    rw [append_acts, append_acts, gapCode_acts, vecActs_append, vecActs_soft cfg _ (soft_gap _ _), hst, vecActs_append, ← vecActs_seen cfg _ _ (c.acts L cfg), ← actsSt_seen]
    obtain ⟨m1, m2⟩ := vec_mid cfg _ hw (if n = 0 then 0 else 1) k v b bs hb
    rw [m1]
    have hv' : v.target = up ++ t.map (movedIn cfg k) ∧ v.lineBuffer = movedIn cfg k a := by
      rw [List.map_append, ← List.append_assoc, VecState.intoVec] at hv
      have := List.append_inj' hv rfl
      exact ⟨this.1, by simpa using this.2⟩
    have hsep : List.replicate (if n = 0 then 0 else 1) ' ' = (if n = 0 then [] else [' ']) := by
      by_cases hn : n = 0 <;> simp [hn]
    have hseam : (vecActs cfg ⟨.none, if n = 0 then 0 else 1, (k : Int)⟩ v (seen (c.acts L cfg))).intoVec =
        up ++ (seam (t ++ [a]) (if n = 0 then [] else [' ']) (s.lines V)).map (movedIn cfg k) := by
      rw [m2, hv'.1, hv'.2, hsep, ← ho, hb, seam_moved cfg k t a _ b bs ha, List.append_assoc]
    obtain ⟨t2, a2, ha2, hne⟩ : ∃ t2 a2, seam (t ++ [a]) (if n = 0 then [] else [' ']) (s.lines V) = t2 ++ [a2] ∧ a2 ≠ [] := by
      rw [← ho, hb]
      rw [hl] at hb
      cases bs with
      | nil => exact ⟨t, a ++ (if n = 0 then [] else [' ']) ++ b, by simp [seam], by simp [ha]⟩
      | cons x y =>
        cases t' with
        | nil => simp at hb
        | cons z t' =>
          simp only [List.cons_append, List.cons.injEq] at hb
          refine ⟨t ++ [a ++ (if n = 0 then [] else [' ']) ++ b] ++ t', b', ?_, hb'⟩
          rw [← hb.2]
          simp [seam]
    rw [ha2] at hseam
    obtain ⟨v', e1, e2⟩ := ih _ up t2 a2 hne hseam
    refine ⟨v', e1, ?_⟩
    rw [e2, List.foldl_cons, ha2]

/-- Lines below others. -/
theorem vec_rows (L : Lang ι) (hQ : HomQuote L) (cfg : Config) (C : (Cur → Node E) → List (Call ι)) (V : (Cur → Node E) → List Str)
    (ls : List (Row E)) (h : ∀ l ∈ ls, ∀ s ∈ l.slots, SlotOk L cfg C V s) : ∀ (p : Nat) (past : List Nat),
    ∃ A, CodeOf ((tailCalls C p past ls).flatMap callItems) A ∧ (∀ v : VecState,
      (vecActs cfg ⟨.none, 0, depth p past⟩ v (A.acts L cfg)).intoVec = v.intoVec ++ Template.outLines cfg V (p :: past) ls) ∧
      Lev (depth p past) (seen (A.acts L cfg)) 0 ∧
      (lastLevel (p :: past) ls = 0 → Ends (seen (A.acts L cfg))) := by
  induction ls with
  | nil =>
    intro p past
    refine ⟨_, by rw [tailCalls, List.flatMap_map]; exact codeOf_gap _, fun v => ?_, ?_, ?_⟩
    rotate_left
    · rw [gapCode_acts]
      cases hd : depth p past with
      | zero =>
        exact ⟨by simp [gapItems, actsFor_nil, seen], fun p hp => by
          cases List.prefix_nil.1 hp
          simp⟩
      | succ n =>
        have := acts_unindents L.langItem n false
        simp only [Bool.false_eq_true, if_false, List.flatten_replicate_singleton] at this
        rw [this]
        exact lev_single _ (.indent (-((n : Int) + 1))) 0 (by simp only [actInd]; omega)
    · intro hl
      rw [gapCode_acts, show depth p past = 0 from hl]
      exact .inl rfl
    rw [gapCode_acts, vecActs_soft cfg _ (soft_gap _ _), Template.outLines, List.append_nil]
  | cons l ls ih =>
    intro p past
    obtain ⟨A1, hA1, ih, il, ie⟩ := ih (fun x hx => h x (by simp [hx])) l.column (p :: past)
    obtain ⟨A2, hA2, hr, rl, re⟩ := vec_slots L hQ cfg C V (depth l.column (p :: past)) l.rest
      (fun q hq => h l (by simp) _ (by simp only [Row.slots, List.mem_cons, List.mem_map]; exact .inr ⟨q, hq, rfl⟩))
      _ A1 hA1
    have hs := h l (by simp) l.first (by simp [Row.slots])
    obtain ⟨c, hp, hc, hw, ho⟩ := hs.code hQ
    refine ⟨_, by
      rw [tailCalls, List.flatMap_append, List.flatMap_map, List.flatMap_append, List.flatMap_append]
      exact codeOf_block hs.block hp hc _ hA2, fun v => ?_, ?_, ?_⟩
    rotate_left
    · rw [append_acts, append_acts, gapCode_acts, seen_append, seen_append]
      exact (lev_break _ _ _ (depth_next _ _ _) _).append ((lev_whole hw _).append (rl _ _ il))
    · intro hl
      rw [append_acts, append_acts, seen_append, seen_append]
      exact ends_block hw (re (ie hl))
    · rw [append_acts, append_acts, gapCode_acts, vecActs_append, vecActs_soft cfg _ (soft_gap _ _), acts_break _ _ _ (depth_next _ _ _), vecActs_append,
        ← vecActs_seen cfg _ _ (c.acts L cfg), ← actsSt_seen]
      obtain ⟨m1, m2⟩ := vec_piece cfg _ hw (if decide (0 < l.above) then .line else .push)
        (by by_cases ha : 0 < l.above <;> simp [ha]) (depth l.column (p :: past)) v
      rw [m1]
      obtain ⟨t, b, hl, hb⟩ := own_last cfg _ hw
      rw [ho] at m2 hl
      rw [hl, ← List.append_assoc] at m2
      obtain ⟨v', e1, e2⟩ := hr _ _ t b hb m2
      rw [e1, ih, e2, ← hl, Template.outLines, Row.lines]
      by_cases ha : 0 < l.above <;> simp [ha]

/-- The calls of a template. -/
def allCalls (C : (Cur → Node E) → List (Call ι)) (l : Row E) (ls : List (Row E)) : List (Call ι) :=
  slotCalls C l.first ++ (restCalls C l.rest ++ tailCalls C l.column [] ls)

theorem opens_rest (C : (Cur → Node E) → List (Call ι)) (r : List (Nat × Slot E))
    (h : ∀ p ∈ r, ∀ i ∈ (slotCalls C p.2).flatMap callItems, opensEval i = false) :
    ∀ i ∈ (restCalls C r).flatMap callItems, opensEval i = false := by
  intro i hi
  obtain ⟨c, hc, hi⟩ := List.mem_flatMap.1 hi
  obtain ⟨p, hp, hc⟩ := List.mem_flatMap.1 hc
  rcases List.mem_append.1 hc with hc | hc
  · by_cases hn : p.1 = 0
    · rw [if_pos hn] at hc; cases hc
    · rw [if_neg hn] at hc
      cases List.mem_singleton.1 hc
      cases List.mem_singleton.1 hi
      rfl
  · exact h p hp i (List.mem_flatMap.2 ⟨c, hc, hi⟩)

theorem opens_gap (w : List WsCall) : ∀ i ∈ (w.map WsCall.call).flatMap (callItems (ι := ι)), opensEval i = false := by
  intro i hi
  obtain ⟨c, hc, hi⟩ := List.mem_flatMap.1 hi
  obtain ⟨w, -, rfl⟩ := List.mem_map.1 hc
  cases w <;> (cases List.mem_singleton.1 hi; rfl)

theorem opens_tail (C : (Cur → Node E) → List (Call ι)) (ls : List (Row E))
    (h : ∀ l ∈ ls, ∀ s ∈ l.slots, ∀ i ∈ (slotCalls C s).flatMap callItems, opensEval i = false) : ∀ p past,
    ∀ i ∈ (tailCalls C p past ls).flatMap callItems, opensEval i = false := by
  induction ls with
  | nil => intro p past; exact opens_gap _
  | cons l ls ih =>
    intro p past i hi
    rw [tailCalls, List.flatMap_append, List.flatMap_append, List.flatMap_append] at hi
    rcases List.mem_append.1 hi with hi | hi
    · exact opens_gap _ i hi
    rcases List.mem_append.1 hi with hi | hi
    · exact h l (by simp) l.first (by simp [Row.slots]) i hi
    rcases List.mem_append.1 hi with hi | hi
    · exact opens_rest C l.rest (fun p hp => h l (by simp) p.2 (by
        simp only [Row.slots, List.mem_cons, List.mem_map]; exact .inr ⟨p, hp, rfl⟩)) i hi
    · exact ih (fun x hx => h x (by simp [hx])) _ _ i hi

theorem uniform_all (L : Lang ι) (C : (Cur → Node E) → List (Call ι)) (l : Row E) (ls : List (Row E))
    (h : ∀ x ∈ l :: ls, ∀ s ∈ x.slots, Uniform L ((slotCalls C s).flatMap callItems)) :
    Uniform L ((allCalls C l ls).flatMap callItems) := by
  by_cases hL : ∀ s, L.evalLiteral s = L.startEval ++ [s] ++ L.endEval
  · exact .inl hL
  · have h' : ∀ x ∈ l :: ls, ∀ s ∈ x.slots, ∀ i ∈ (slotCalls C s).flatMap callItems, opensEval i = false :=
      fun x hx s hs => (h x hx s hs).resolve_left hL
    refine .inr (fun i hi => ?_)
    rw [allCalls, List.flatMap_append, List.flatMap_append] at hi
    rcases List.mem_append.1 hi with hi | hi
    · exact h' l (by simp) l.first (by simp [Row.slots]) i hi
    rcases List.mem_append.1 hi with hi | hi
    · exact opens_rest C l.rest (fun p hp => h' l (by simp) p.2 (by
        simp only [Row.slots, List.mem_cons, List.mem_map]; exact .inr ⟨p, hp, rfl⟩)) i hi
    · exact opens_tail C ls (fun x hx => h' x (by simp [hx])) _ _ i hi

/-- Nothing, or the last item is not white space. -/
def Solid (l : List (Item ι)) : Prop := l = [] ∨ ∃ r x, l = r ++ [x] ∧ isWs x = false

theorem Solid.append {a b : List (Item ι)} (ha : Solid a) (hb : Solid b) : Solid (a ++ b) := by
  rcases hb with rfl | ⟨r, x, rfl, hx⟩
  · rwa [List.append_nil]
  · exact .inr ⟨a ++ r, x, by simp, hx⟩

theorem solid_block {L : Lang ι} {cfg : Config} {cs : List (Call ι)} (h : Template.Block L cfg cs) (w : List (Item ι)) :
    Solid (w ++ cs.flatMap callItems) := by
  obtain ⟨r, x, e, hx⟩ := h.last
  exact .inr ⟨w ++ r, x, by rw [e]; simp, hx⟩

theorem solid_rest {L : Lang ι} {cfg : Config} {C : (Cur → Node E) → List (Call ι)} {V : (Cur → Node E) → List Str}
    (r : List (Nat × Slot E)) (h : ∀ p ∈ r, SlotOk L cfg C V p.2) : Solid ((restCalls C r).flatMap callItems) := by
  induction r with
  | nil => exact .inl rfl
  | cons p r ih =>
    rw [show restCalls C (p :: r) = ((if p.1 = 0 then [] else [WsCall.space]).map WsCall.call ++ slotCalls C p.2) ++
      restCalls C r from by
        unfold restCalls
        rw [List.flatMap_cons]
        by_cases hn : p.1 = 0 <;> simp [hn, WsCall.call], List.flatMap_append, List.flatMap_append]
    exact (solid_block (h p (by simp)).block _).append (ih (fun p hp => h p (by simp [hp])))

theorem solid_tail {L : Lang ι} {cfg : Config} {C : (Cur → Node E) → List (Call ι)} {V : (Cur → Node E) → List Str}
    (ls : List (Row E)) (h : ∀ x ∈ ls, ∀ s ∈ x.slots, SlotOk L cfg C V s) :
    ∀ (p : Nat) (past : List Nat), lastLevel (p :: past) ls = 0 → Solid ((tailCalls C p past ls).flatMap callItems) := by
  induction ls with
  | nil =>
    intro p past hl
    rw [tailCalls, show depth p past = 0 from hl]
    exact .inl rfl
  | cons l ls ih =>
    intro p past hl
    rw [tailCalls, ← List.append_assoc, List.flatMap_append, List.flatMap_append, List.flatMap_append]
    have h1 : ∀ q ∈ l.rest, SlotOk L cfg C V q.2 := fun q hq => h l (by simp) _ (by
      simp only [Row.slots, List.mem_cons, List.mem_map]; exact .inr ⟨q, hq, rfl⟩)
    exact (solid_block (h l (by simp) l.first (by simp [Row.slots])).block _).append ((solid_rest l.rest h1).append
      (ih (fun x hx => h x (by simp [hx])) l.column (p :: past) hl))

theorem vec_template (L : Lang ι) (hQ : HomQuote L) (cfg : Config) (C : (Cur → Node E) → List (Call ι)) (V : (Cur → Node E) → List Str)
    (l : Row E) (ls : List (Row E)) (h : ∀ x ∈ l :: ls, ∀ s ∈ x.slots, SlotOk L cfg C V s) :
    toVec L cfg (history (allCalls C l ls)).items =
      some (Template.outLines cfg V [] (l :: ls)) ∧
    (lastLevel [] (l :: ls) = 0 → Template.Block L cfg (allCalls C l ls)) := by
  obtain ⟨A1, hA1, ih, il, ie⟩ := vec_rows L hQ cfg C V ls (fun x hx => h x (by simp [hx])) l.column []
  obtain ⟨A2, hA2, hr, rl, re⟩ := vec_slots L hQ cfg C V 0 l.rest
    (fun q hq => h l (by simp) _ (by simp only [Row.slots, List.mem_cons, List.mem_map]; exact .inr ⟨q, hq, rfl⟩))
    _ A1 hA1
  have hs := h l (by simp) l.first (by simp [Row.slots])
  obtain ⟨c, hp, hc, hw, ho⟩ := hs.code hQ
  have hA := codeOf_block hs.block hp hc [] hA2
  have hA' : CodeOf ((allCalls C l ls).flatMap callItems) ((gapCode []).append (c.append A2)) := by
    rw [allCalls, List.flatMap_append, List.flatMap_append]; exact hA
  refine ⟨?_, fun hl => ?_⟩
  rotate_left
  · have hw' : Whole (seen (((gapCode []).append (c.append A2)).acts L cfg)) := by
      have e : seen (((gapCode []).append (c.append A2)).acts L cfg) =
          seen (c.acts L cfg) ++ seen (A2.acts L cfg) := by
        rw [append_acts, append_acts, seen_append, seen_append]; rfl
      have lv : Lev 0 (seen (c.acts L cfg) ++ seen (A2.acts L cfg)) 0 :=
        (lev_whole hw 0).append (rl _ _ il)
      rw [e]
      obtain ⟨s, r, hf, hsn⟩ := hw.first
      refine ⟨⟨s, r ++ seen (A2.acts L cfg), by rw [hf]; rfl, hsn⟩, ?_, ?_, ?_⟩
      · have := ends_block (A := []) hw (re (ie hl))
        rcases this with h | h
        · rw [hf] at h; cases h
        · exact h
      · intro p hp
        have := lv.2 p hp
        simpa using this
      · have := lv.1
        simpa using this
    refine ⟨?_, ?_, _, hA'.1, ?_, hw'⟩
    · obtain ⟨x, r, e, hx⟩ := hs.block.first
      exact ⟨x, _, by rw [allCalls, List.flatMap_append, e, List.cons_append], hx⟩
    · have : Solid ((allCalls C l ls).flatMap callItems) := by
        rw [allCalls, List.flatMap_append, List.flatMap_append]
        have h1 : ∀ q ∈ l.rest, SlotOk L cfg C V q.2 := fun q hq => h l (by simp) _ (by
          simp only [Row.slots, List.mem_cons, List.mem_map]; exact .inr ⟨q, hq, rfl⟩)
        exact Solid.append (solid_block hs.block []) (Solid.append (solid_rest l.rest h1)
          (solid_tail ls (fun x hx => h x (by simp [hx])) _ _ hl))
      rcases this with h | h
      · obtain ⟨x, r, e, hx⟩ := hs.block.first
        rw [allCalls, List.flatMap_append, e] at h
        cases h
      · exact h
    · rw [letters_history, ← letters_norm, hA'.2]
  rw [toVec_codeOf L hQ cfg _ _ (uniform_all L C l ls (fun x hx s hs => (h x hx s hs).uniform)) hA']
  congr 1
  rw [append_acts, append_acts, gapCode_acts, vecActs_append, vecActs_soft cfg _ (soft_gap _ _)]
  show (vecActs cfg .new .new (c.acts L cfg ++ A2.acts L cfg)).intoVec = _
  rw [vecActs_append, ← vecActs_seen cfg _ _ (c.acts L cfg), ← actsSt_seen, vec_first _ hw]
  have z : movedIn cfg 0 = id := by
    funext s
    have z : marginText cfg 0 = [] := by unfold marginText; cases cfg.indentation <;> simp
    by_cases h : s = [] <;> simp [movedIn, h, z]
  obtain ⟨t, b, hl, hb⟩ := own_last cfg _ hw
  obtain ⟨v', e1, e2⟩ := hr (vecActs cfg .new .new (seen (c.acts L cfg))) [] t b hb (by
    rw [z, List.map_id, List.nil_append, ← hl]; rfl)
  rw [show (⟨.none, 0, 0⟩ : LSt) = ⟨.none, 0, ((0 : Nat) : Int)⟩ from rfl, e1]
  rw [show depth l.column [] = 0 from rfl] at ih
  rw [ih, e2, ← hl, ho, Template.outLines, Row.lines, show depth l.column [] = 0 from rfl]
  simp

end Genco.Macro
