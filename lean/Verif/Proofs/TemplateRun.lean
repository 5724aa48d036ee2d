import Verif.Proofs.Template
import Verif.Proofs.MacroEmpty
import Verif.Proofs.MacroParse

/-!
# Macros that are templates
-/

set_option autoImplicit false

namespace Genco.Macro

open Spec Spec.MacroFile Spec.Template Tokens

variable {ι E Env : Type}

/-! ## Brackets -/

mutual

theorem nodes_flatten : ∀ (ns : List (Node E)) (e : Enc ι E), Macro.nodes e ns = Macro.nodes e (flatten ns)
  | [], _ => rfl
  | n :: ns, e => by
    rw [flatten, Macro.nodes, nodes_concat, ← node_flatten n e]
    exact bind_congr (fun e' => nodes_flatten ns e')

theorem node_flatten : ∀ (n : Node E) (e : Enc ι E), Macro.node e n = Macro.nodes e (flattenNode n)
  | .group cur d content, e => by
    rw [flattenNode, Macro.node, List.cons_append, Macro.nodes]
    have h1 : Macro.node e (.tree ⟨cur.start, ⟨cur.start.line, cur.start.column + 1⟩⟩ [openChar d]) =
        e.encode cur.firstCharacter (.delimiterOpen d) := by
      cases d <;> rfl
    rw [h1]
    refine bind_congr (fun e' => ?_)
    rw [nodes_concat, ← nodes_flatten content e']
    refine bind_congr (fun e'' => ?_)
    rw [Macro.nodes]
    have h2 : Macro.node e'' (.tree ⟨⟨cur.stop.line, cur.stop.column - 1⟩, cur.stop⟩ [closeChar d]) =
        e''.encode cur.lastCharacter (.delimiterClose d) := by
      cases d <;> rfl
    rw [h2]
    exact (bind_pure _).symm
  | .tree cur s, e => by rw [flattenNode, nodes_one]
  | .escape cur, e => by rw [flattenNode, nodes_one]
  | .str cur paren ps, e => by rw [flattenNode, nodes_one]
  | .control cur k, e => by rw [flattenNode, nodes_one]
  | .quoted cur s, e => by rw [flattenNode, nodes_one]
  | .literal cur s, e => by rw [flattenNode, nodes_one]
  | .eval cur x, e => by rw [flattenNode, nodes_one]
  | .scope cur b c, e => by rw [flattenNode, nodes_one]
  | .loop cur p i b, e => by rw [flattenNode, nodes_one]
  | .joined cur p i paren s b, e => by rw [flattenNode, nodes_one]
  | .ifThen cur c t, e => by rw [flattenNode, nodes_one]
  | .ifElse cur c t f, e => by rw [flattenNode, nodes_one]
  | .select cur x as, e => by rw [flattenNode, nodes_one]
  | .bind cur p x, e => by rw [flattenNode, nodes_one]

end

theorem quote_flatten (span : Option Cur) (ns : List (Node E)) :
    Macro.quote (ι := ι) span ns = Macro.quote span (flatten ns) := by
  unfold Macro.quote
  rw [nodes_flatten]

/-! ## No empty text -/

theorem quote_full (H : Host ι E Env) (hv : ∀ ρ e, ∀ c ∈ H.value ρ e, ¬ EmptyCall c)
    (hs : ∀ ρ e, ∀ c ∈ H.scope ρ e, ¬ EmptyCall c) (span : Option Cur) (ns : List (Node E))
    (hn : emptyText ns = false) (r : Bool) (ss : List (Stmt ι E)) (h : Macro.quote span ns = .ok (r, ss))
    (ρ : Env) : ∀ c ∈ runBlock H ρ ss, ¬ EmptyCall c := by
  obtain ⟨e, h1, h2⟩ := ok_bind (x := nodes (startEnc span) ns) (f := Enc.intoOutput) h
  exact full_block H hv hs ns hn span e r ss h1 h2 ρ

theorem slot_ink {H : Host ι E Env} {ρ : Env} {C : (Cur → Node E) → List (Call ι)} {s : Slot E}
    (h : SlotFills H ρ C s) (cur : Cur) : emptyTextNode (s.node cur) = false := by
  cases s with
  | word s => rfl
  | hole w n => exact h.ink cur

theorem emptyText_append (a b : List (Node E)) : emptyText (a ++ b) = (emptyText a || emptyText b) := by
  induction a with
  | nil => rfl
  | cons n a ih => rw [List.cons_append, emptyText, emptyText, ih, Bool.or_assoc]

theorem rest_ink {H : Host ι E Env} {ρ : Env} {C : (Cur → Node E) → List (Call ι)} (line : Nat)
    (r : List (Nat × Slot E)) (h : ∀ p ∈ r, SlotFills H ρ C p.2) :
    ∀ column, emptyText (placeRest line column r) = false := by
  induction r with
  | nil => intro column; rfl
  | cons p r ih =>
    intro column
    rw [Template.placeRest, emptyText, slot_ink (h p (by simp)), ih (fun p hp => h p (by simp [hp]))]
    rfl

theorem rows_ink {H : Host ι E Env} {ρ : Env} {C : (Cur → Node E) → List (Call ι)} (ls : List (Row E))
    (h : ∀ l ∈ ls, ∀ s ∈ l.slots, SlotFills H ρ C s) : ∀ line, emptyText (placeRows line ls) = false := by
  induction ls with
  | nil => intro line; rfl
  | cons l ls ih =>
    intro line
    have h1 : ∀ q ∈ l.rest, SlotFills H ρ C q.2 := fun q hq => h l (by simp) _ (by
      simp only [Row.slots, List.mem_cons, List.mem_map]; exact .inr ⟨q, hq, rfl⟩)
    rw [placeRows, List.cons_append, emptyText, emptyText_append, slot_ink (h l (by simp) _ (by simp [Row.slots])),
      rest_ink _ _ h1, ih (fun x hx => h x (by simp [hx]))]
    rfl

theorem slot_full {H : Host ι E Env} (hv : ∀ ρ e, ∀ c ∈ H.value ρ e, ¬ EmptyCall c)
    (hs : ∀ ρ e, ∀ c ∈ H.scope ρ e, ¬ EmptyCall c) {ρ : Env} {C : (Cur → Node E) → List (Call ι)} {s : Slot E}
    (h : SlotFills H ρ C s) : ∀ c ∈ slotCalls C s, ¬ EmptyCall c := by
  cases s with
  | word s =>
    intro c hc
    cases List.mem_singleton.1 hc
    intro he
    cases s with
    | nil => exact h rfl
    | cons a s => exact absurd he (by simp [EmptyCall])
  | hole w n =>
    obtain ⟨r, ss, h1, h2, -⟩ := h.alone ⟨⟨0, 0⟩, ⟨0, 0⟩⟩
    intro c hc
    refine quote_full H hv hs none _ ?_ r ss h1 ρ c (by rw [h2]; exact hc)
    rw [emptyText, h.ink]
    rfl

theorem gap_full (w : List WsCall) : ∀ c ∈ (w.map WsCall.call : List (Call ι)), ¬ EmptyCall c := by
  intro c hc
  obtain ⟨x, -, rfl⟩ := List.mem_map.1 hc
  cases x <;> exact fun h => by simp [EmptyCall, WsCall.call] at h

theorem rest_full (C : (Cur → Node E) → List (Call ι)) (r : List (Nat × Slot E))
    (h : ∀ p ∈ r, ∀ c ∈ slotCalls C p.2, ¬ EmptyCall c) : ∀ c ∈ restCalls C r, ¬ EmptyCall c := by
  intro c hc
  obtain ⟨p, hp, hc⟩ := List.mem_flatMap.1 hc
  rcases List.mem_append.1 hc with hc | hc
  · by_cases hn : p.1 = 0
    · rw [if_pos hn] at hc; cases hc
    · rw [if_neg hn] at hc
      cases List.mem_singleton.1 hc
      exact fun h => by simp [EmptyCall] at h
  · exact h p hp c hc

theorem tail_full (C : (Cur → Node E) → List (Call ι)) (ls : List (Row E))
    (h : ∀ x ∈ ls, ∀ s ∈ x.slots, ∀ c ∈ slotCalls C s, ¬ EmptyCall c) :
    ∀ p past, ∀ c ∈ tailCalls C p past ls, ¬ EmptyCall c := by
  induction ls with
  | nil => intro p past c hc; exact gap_full _ c hc
  | cons l ls ih =>
    intro p past c hc
    rw [tailCalls] at hc
    have h1 : ∀ q ∈ l.rest, ∀ c ∈ slotCalls C q.2, ¬ EmptyCall c := fun q hq => h l (by simp) _ (by
      simp only [Row.slots, List.mem_cons, List.mem_map]; exact .inr ⟨q, hq, rfl⟩)
    rcases List.mem_append.1 hc with hc | hc
    · exact gap_full _ c hc
    rcases List.mem_append.1 hc with hc | hc
    · exact h l (by simp) l.first (by simp [Row.slots]) c hc
    rcases List.mem_append.1 hc with hc | hc
    · exact rest_full C l.rest h1 c hc
    · exact ih (fun x hx => h x (by simp [hx])) _ _ c hc

/-! ## What is run -/

theorem template_run (H : Host ι E Env) (hv : ∀ ρ e, ∀ c ∈ H.value ρ e, ¬ EmptyCall c)
    (hs : ∀ ρ e, ∀ c ∈ H.scope ρ e, ¬ EmptyCall c) (ρ : Env) (C : (Cur → Node E) → List (Call ι))
    (l : Row E) (ls : List (Row E)) (h : ∀ x ∈ l :: ls, ∀ s ∈ x.slots, SlotFills H ρ C s)
    (ho : Template.Offside [] (l :: ls)) (line : Nat) (ns : List (Node E)) (hn : flatten ns = placeRows line (l :: ls)) :
    ∃ r ss, Macro.quote none ns = .ok (r, ss) ∧ leave H ρ ss = ρ ∧
      letters ((runBlock H ρ ss).flatMap callItems) = letters ((allCalls C l ls).flatMap callItems) := by
  obtain ⟨ps, h1, h2⟩ := stepsOf_rows H ρ C (l :: ls) h line
  cases h2 with
  | @cons _ p _ ps ha hc hd hr hps =>
  have ho' := offside_rows (DoesRows.cons ha hc hd hr hps) [] ho
  have hb := block_pLines (Step.ws (ι := ι) (Env := Env)) p ps line ho'
  obtain ⟨-, q2⟩ := quote_ok H none (nodes_ok H (flatten ns))
  rw [hn, h1] at q2
  obtain ⟨ss, hq, he⟩ := q2 _ hb
  have hq' : Macro.quote none (flatten ns) = .ok (interpolated (placeRows line (l :: ls)), ss) := by
    rw [hn]; exact hq
  obtain ⟨-, d1, d2⟩ := hd
  obtain ⟨r1, r2⟩ := perform_rest ρ C hr
  obtain ⟨t1, t2⟩ := perform_tail ρ C hps p.column []
  refine ⟨_, ss, by rw [quote_flatten]; exact hq', ?_, ?_⟩
  · rw [← behind_evs, he, behind_append, behind_append, d2, r2, t2]
  · rw [letters_marks _ (quote_full H hv hs none _ (by rw [hn]; exact rows_ink _ h line) _ ss hq' ρ),
      letters_marks, ← perform_evs, he, perform_append, perform_append, d1, d2, r1, r2, t1, hc, allCalls, marks_append, marks_append]
    have full := fun x hx s hs' => slot_full (ρ := ρ) (C := C) hv hs (h x hx s hs')
    intro c hc
    rcases List.mem_append.1 hc with hc | hc
    · exact full l (by simp) l.first (by simp [Row.slots]) c hc
    rcases List.mem_append.1 hc with hc | hc
    · refine rest_full C l.rest (fun q hq => full l (by simp) _ ?_) c hc
      simp only [Row.slots, List.mem_cons, List.mem_map]; exact .inr ⟨q, hq, rfl⟩
    · exact tail_full C ls (fun x hx => full x (by simp [hx])) _ _ c hc

/-! ## Cuts -/

theorem letter_last (i : Item ι) : ∃ r x, letter i = r ++ [x] ∧ isWs x = isWs i := by
  cases i with
  | literal s =>
    show ∃ r x, spell s.text = r ++ [x] ∧ _
    cases s.text with
    | nil => exact ⟨[], _, rfl, rfl⟩
    | cons c r =>
      rcases List.eq_nil_or_concat (c :: r) with h | ⟨r', d, h⟩
      · cases h
      · exact ⟨r'.map (fun c => .literal (.static [c])), .literal (.static [d]), by rw [spell, h]; simp, rfl⟩
  | _ => exact ⟨[], _, rfl, rfl⟩

theorem cut_uniform {L : Lang ι} {x y : List (Item ι)} (hE : Uniform L x) (h : letters x = letters y) : Uniform L y :=
  hE.imp id (fun hx => (opens_letters y).1 (by rw [← h]; exact (opens_letters x).2 hx))

theorem cut_history {L : Lang ι} {cs : List (Call ι)} (hE : Uniform L (cs.flatMap callItems)) :
    Uniform L (history cs).items := by
  refine hE.imp id (fun h => (opens_letters _).1 ?_)
  rw [letters_history]
  exact opens_norm ((opens_letters _).2 h)

theorem cut_vec (L : Lang ι) (hQ : HomQuote L) (cfg : Config) {cs ds : List (Call ι)}
    (hE : Uniform L (cs.flatMap callItems)) (h : letters (cs.flatMap callItems) = letters (ds.flatMap callItems)) :
    toVec L cfg (history cs).items = toVec L cfg (history ds).items :=
  toVec_letters L hQ cfg _ _ (cut_history hE) (by rw [letters_history, letters_history, h])

theorem cut_block {L : Lang ι} {cfg : Config} {cs ds : List (Call ι)} (hB : Template.Block L cfg cs)
    (h : letters (cs.flatMap callItems) = letters (ds.flatMap callItems)) : Template.Block L cfg ds := by
  obtain ⟨⟨x, r, e, hx⟩, ⟨r', x', e', hx'⟩, c, hp, hc, hw⟩ := hB
  refine ⟨?_, ?_, c, hp, by rw [letters_history, ← h, ← letters_history, hc], hw⟩
  · obtain ⟨y, t, ey, hy, -⟩ := letter_cons x
    rw [e, letters_cons, ey] at h
    cases hd : ds.flatMap callItems with
    | nil => rw [hd] at h; cases h
    | cons z u =>
      obtain ⟨y', t', ey', hy', -⟩ := letter_cons z
      rw [hd, letters_cons, ey', List.cons_append, List.cons_append, List.cons.injEq] at h
      exact ⟨z, u, rfl, by rw [← hy', ← h.1, hy, hx]⟩
  · obtain ⟨t, y, ey, hy⟩ := letter_last x'
    rw [e', letters_append, letters_cons, ey] at h
    rcases List.eq_nil_or_concat (ds.flatMap callItems) with hd | ⟨u, z, hd⟩
    · rw [hd] at h
      simp [letters] at h
    · obtain ⟨t', y', ey', hy'⟩ := letter_last z
      rw [List.concat_eq_append] at hd
      rw [hd, letters_append, letters_cons, ey', show letters ([] : List (Item ι)) = [] from rfl,
        List.append_nil, List.append_nil, ← List.append_assoc, ← List.append_assoc] at h
      have := (List.append_inj' h rfl).2
      rw [List.cons.injEq] at this
      exact ⟨u, z, hd, by rw [← hy', ← this.1, hy, hx']⟩

/-! ## Blocks -/

theorem whole_text (s : Str) (h : s ≠ []) : Whole [.text s] := by
  refine ⟨⟨s, [], rfl, h⟩, ⟨[], s, rfl, h⟩, fun p hp => ?_, rfl⟩
  rcases List.prefix_cons_iff.1 hp with rfl | ⟨q, rfl, hq⟩
  · simp
  · cases List.prefix_nil.1 hq
    simp [actInd]

theorem block_text (L : Lang ι) (cfg : Config) (i : ItemStr) (h : i.text ≠ []) :
    Template.Block L cfg [.append (.literal i)] ∧ toVec L cfg (history [.append (.literal i)]).items = some [i.text] := by
  refine ⟨⟨⟨_, [], rfl, rfl⟩, ⟨[], _, rfl, rfl⟩, .item (.literal i) .nil, rfl, rfl, ?_⟩, ?_⟩
  · have : seen ((Code.item (.literal i) .nil).acts L cfg) = [.text i.text] := by
      cases i <;> simp_all [Code.acts, seen, plainActs]
    rw [this]
    exact whole_text _ h
  · have : (history [Call.append (.literal i)]).items = ([.literal i] : List (Item ι)) := rfl
    rw [this]
    rw [toVec_eq, show resolveItems L cfg [Item.literal i] = ([Act.text i.text], some ()) by cases i <;> rfl]
    have z : marginText cfg 0 = [] := by unfold marginText; cases cfg.indentation <;> simp
    simp [vecActs, vecAct, h, LSt.new, VecState.new, VecState.intoVec, flushPad, z]

theorem history_stream (cs : List (Call ι)) : history [.stream (history cs).items] = history cs := by
  rw [history_eq cs, history_eq]
  show fromIter ((fromIter _).items ++ []) = _
  rw [List.append_nil, fromIter_idem]

theorem block_stream {L : Lang ι} {cfg : Config} {cs : List (Call ι)} (h : Template.Block L cfg cs) :
    Template.Block L cfg [.stream (history cs).items] := by
  obtain ⟨⟨x, r, e, hx⟩, ⟨r', x', e', hx'⟩, c, hp, hc, hw⟩ := h
  have hn := norm_history cs
  have hws : ∀ i : Item ι, isWs (erase i) = isWs i := fun i => by cases i <;> rfl
  refine ⟨?_, ?_, c, hp, by rw [history_stream, hc], hw⟩
  · rw [e, ← List.nil_append (x :: r), norm_split _ _ _ hx] at hn
    cases hd : (history cs).items with
    | nil => rw [hd] at hn; simp at hn
    | cons y t =>
      rw [hd] at hn
      have hn : erase x :: norm r = erase y :: t.map erase := hn
      rw [List.cons.injEq] at hn
      exact ⟨y, t ++ [], rfl, by rw [← hws, ← hn.1, hws, hx]⟩
  · rw [e', norm_split _ _ _ hx'] at hn
    rcases List.eq_nil_or_concat (history cs).items with hd | ⟨u, z, hd⟩
    · rw [hd] at hn; simp at hn
    · rw [List.concat_eq_append] at hd
      rw [hd, List.map_append] at hn
      have := (List.append_inj' hn rfl).2
      have this : [erase x'] = [erase z] := this
      rw [List.cons.injEq] at this
      refine ⟨u, z, ?_, by rw [← hws, ← this.1, hws, hx']⟩
      show (history cs).items ++ [] = _
      rw [List.append_nil, hd]

/-! ## Templates -/

theorem slotIn_fills {H : Host ι E Env} {ρ : Env} {L : Lang ι} {cfg : Config} {C : (Cur → Node E) → List (Call ι)}
    {V : (Cur → Node E) → List Str} {s : Slot E} (h : SlotIn H ρ L cfg C V s) : SlotFills H ρ C s := by
  cases s with
  | word s => exact h
  | hole w n => exact h.fills

theorem slotIn_ok {H : Host ι E Env} {ρ : Env} {L : Lang ι} {cfg : Config} {C : (Cur → Node E) → List (Call ι)}
    {V : (Cur → Node E) → List Str} {s : Slot E} (h : SlotIn H ρ L cfg C V s) : SlotOk L cfg C V s := by
  cases s with
  | word s =>
    obtain ⟨h1, h2⟩ := block_text L cfg (.static s) h
    exact ⟨h1, .inr (fun i hi => by cases List.mem_singleton.1 hi; rfl), h2⟩
  | hole w n => exact ⟨h.block, h.uniform, h.lines⟩

theorem template_vec (H : Host ι E Env) (hv : ∀ ρ e, ∀ c ∈ H.value ρ e, ¬ EmptyCall c)
    (hs : ∀ ρ e, ∀ c ∈ H.scope ρ e, ¬ EmptyCall c) (ρ : Env) (L : Lang ι) (hQ : HomQuote L) (cfg : Config)
    (C : (Cur → Node E) → List (Call ι)) (V : (Cur → Node E) → List Str)
    (l : Row E) (ls : List (Row E)) (h : ∀ x ∈ l :: ls, ∀ s ∈ x.slots, SlotIn H ρ L cfg C V s)
    (ho : Template.Offside [] (l :: ls)) (line : Nat) (ns : List (Node E)) (hn : flatten ns = placeRows line (l :: ls)) :
    ∃ r ss, Macro.quote none ns = .ok (r, ss) ∧ leave H ρ ss = ρ ∧
      toVec L cfg (history (runBlock H ρ ss)).items = some (Template.outLines cfg V [] (l :: ls)) ∧
      Uniform L ((runBlock H ρ ss).flatMap callItems) ∧
      (lastLevel [] (l :: ls) = 0 → Template.Block L cfg (runBlock H ρ ss)) := by
  obtain ⟨r, ss, h1, h2, h3⟩ := template_run H hv hs ρ C l ls (fun x hx s hs => slotIn_fills (h x hx s hs)) ho line ns hn
  have hu := uniform_all L C l ls (fun x hx s hs => (slotIn_ok (h x hx s hs)).uniform)
  obtain ⟨v1, v2⟩ := vec_template L hQ cfg C V l ls (fun x hx s hs => slotIn_ok (h x hx s hs))
  exact ⟨r, ss, h1, h2, by rw [← cut_vec L hQ cfg hu h3.symm, v1], cut_uniform hu h3.symm,
    fun hl => cut_block (v2 hl) h3.symm⟩

/-! ## Holes -/

theorem fills_eval (H : Host ι E Env) (ρ : Env) (e : E) : Fills H ρ (fun cur => .eval cur e) (H.value ρ e) :=
  ⟨fun _ => rfl, fun _ => rfl, fun cur => ⟨false, [.value e], rfl, by simp [runBlock, runStmt], rfl⟩⟩

theorem fills_if (H : Host ι E Env) (ρ : Env) (c : E) (t : List (Node E)) (ht : emptyText t = false) (r : Bool)
    (ss : List (Stmt ι E)) (h : Macro.quote none t = .ok (r, ss)) (ρ' : Env) (hc : H.test ρ c = some ρ') :
    Fills H ρ (fun cur => .ifThen cur c t) (runBlock H ρ' ss) := by
  refine ⟨fun _ => rfl, fun _ => by rw [emptyTextNode]; exact ht, fun cur => ⟨false || r, [.ifThen c ss], ?_, ?_, rfl⟩⟩
  · obtain ⟨e, h1, h2⟩ := ok_bind (x := nodes (startEnc none) t) (f := Enc.intoOutput) h
    unfold Macro.quote
    rw [nodes_one, Macro.node, h1]
    simp only [bind, Except.bind, h2]
    rfl
  · simp [runBlock, runStmt, hc]

theorem fills_loop (H : Host ι E Env) (ρ : Env) (pat iter : E) (body : List (Node E)) (hb : emptyText body = false)
    (r : Bool) (ss : List (Stmt ι E)) (h : Macro.quote none body = .ok (r, ss)) :
    Fills H ρ (fun cur => .loop cur pat iter body) ((H.iter ρ pat iter).flatMap (fun ρ' => runBlock H ρ' ss)) := by
  refine ⟨fun _ => rfl, fun _ => by rw [emptyTextNode]; exact hb, fun cur => ⟨false || r, [.forIn pat iter ss], ?_, ?_, rfl⟩⟩
  · obtain ⟨e, h1, h2⟩ := ok_bind (x := nodes (startEnc none) body) (f := Enc.intoOutput) h
    unfold Macro.quote
    rw [nodes_one, Macro.node, h1]
    simp only [bind, Except.bind, h2]
    rfl
  · simp [runBlock, runStmt]

theorem fills_joined (H : Host ι E Env) (ρ : Env) (pat iter : E) (paren : Cur) (sep body : List (Node E))
    (hb : emptyText body = false) (hp : emptyText sep = false)
    (r r' : Bool) (ss ss' : List (Stmt ι E)) (h : Macro.quote none body = .ok (r, ss))
    (h' : Macro.quote (some paren) sep = .ok (r', ss')) :
    Fills H ρ (fun cur => .joined cur pat iter paren sep body)
      (peekLoop (fun ρ' => runBlock H ρ' ss) (fun ρ' => runBlock H (leave H ρ' ss) ss') (H.iter ρ pat iter)) := by
  refine ⟨fun _ => rfl, fun _ => by rw [emptyTextNode, hb, hp]; rfl,
    fun cur => ⟨false || (r' || r), [.joinIn pat iter ss' ss], ?_, ?_, rfl⟩⟩
  · obtain ⟨e, h1, h2⟩ := ok_bind (x := nodes (startEnc none) body) (f := Enc.intoOutput) h
    obtain ⟨e', h1', h2'⟩ := ok_bind (x := nodes (startEnc (some paren)) sep) (f := Enc.intoOutput) h'
    unfold Macro.quote
    rw [nodes_one, Macro.node, h1, h1']
    simp only [bind, Except.bind, h2, h2']
    rfl
  · simp [runBlock, runStmt]

theorem fills_else (H : Host ι E Env) (ρ : Env) (c : E) (t f : List (Node E)) (ht : emptyText t = false)
    (hf : emptyText f = false) (r r' : Bool) (ss ss' : List (Stmt ι E)) (h : Macro.quote none t = .ok (r, ss))
    (h' : Macro.quote none f = .ok (r', ss')) :
    Fills H ρ (fun cur => .ifElse cur c t f) ((H.test ρ c).elim (runBlock H ρ ss') (fun ρ' => runBlock H ρ' ss)) := by
  refine ⟨fun _ => rfl, fun _ => by rw [emptyTextNode, ht, hf]; rfl,
    fun cur => ⟨false || (r || r'), [.ifElse c ss ss'], ?_, by simp [runBlock, runStmt], rfl⟩⟩
  obtain ⟨e, h1, h2⟩ := ok_bind (x := nodes (startEnc none) t) (f := Enc.intoOutput) h
  obtain ⟨e', h1', h2'⟩ := ok_bind (x := nodes (startEnc none) f) (f := Enc.intoOutput) h'
  unfold Macro.quote
  rw [nodes_one, Macro.node, h1, h1']
  simp only [bind, Except.bind, h2, h2']
  rfl

theorem fills_ifThen (H : Host ι E Env) (ρ : Env) (c : E) (t : List (Node E)) (ht : emptyText t = false) (r : Bool)
    (ss : List (Stmt ι E)) (h : Macro.quote none t = .ok (r, ss)) :
    Fills H ρ (fun cur => .ifThen cur c t) ((H.test ρ c).elim [] (fun ρ' => runBlock H ρ' ss)) := by
  refine ⟨fun _ => rfl, fun _ => by rw [emptyTextNode]; exact ht,
    fun cur => ⟨false || r, [.ifThen c ss], ?_, by simp [runBlock, runStmt], rfl⟩⟩
  obtain ⟨e, h1, h2⟩ := ok_bind (x := nodes (startEnc none) t) (f := Enc.intoOutput) h
  unfold Macro.quote
  rw [nodes_one, Macro.node, h1]
  simp only [bind, Except.bind, h2]
  rfl

/-- The arms of a match as they are compiled. -/
theorem arms_all (as : List (Arm E)) (h : ∀ p g q b, Arm.mk p g q b ∈ as → ∃ x, Macro.quote (ι := ι) q b = .ok x) :
    ∃ r out, arms (ι := ι) as = .ok (r, out) := by
  induction as with
  | nil => exact ⟨_, _, rfl⟩
  | cons a as ih =>
    obtain ⟨p, g, q, b⟩ := a
    obtain ⟨r, out, hr⟩ := ih (fun p g q b hb => h p g q b (by simp [hb]))
    obtain ⟨⟨r', ss⟩, hx⟩ := h p g q b (by simp)
    obtain ⟨e, h1, h2⟩ := ok_bind (x := nodes (startEnc q) b) (f := Enc.intoOutput) hx
    refine ⟨r' || r, (p, g, ss) :: out, ?_⟩
    rw [arms, h1]
    simp only [bind, Except.bind, h2, hr]

theorem arms_none (H : Host ι E Env) (ρ : Env) (x : E) (as : List (Arm E)) : ∀ (r : Bool)
    (out : List (E × Option E × List (Stmt ι E))), arms as = .ok (r, out) →
    (∀ p g q b, Arm.mk p g q b ∈ as → H.pick ρ x p g = none) → runArms H ρ x out = [] := by
  induction as with
  | nil => intro r out h _; cases h; rfl
  | cons a as ih =>
    obtain ⟨p, g, q, b⟩ := a
    intro r out h hp
    rw [arms] at h
    obtain ⟨e, h1, h2⟩ := ok_bind h
    obtain ⟨⟨r1, s1⟩, h3, h4⟩ := ok_bind h2
    obtain ⟨⟨r2, o2⟩, h5, h6⟩ := ok_bind h4
    cases h6
    rw [runArms, hp p g q b (by simp)]
    exact ih _ _ h5 (fun p g q b hb => hp p g q b (by simp [hb]))

theorem arms_pick (H : Host ι E Env) (ρ : Env) (x : E) (before : List (Arm E)) (p : E) (g : Option E) (q : Option Cur)
    (b : List (Node E)) (after : List (Arm E)) (ρ' : Env) (hpick : H.pick ρ x p g = some ρ') (rb : Bool)
    (ss : List (Stmt ι E)) (hq : Macro.quote q b = .ok (rb, ss)) : ∀ (r : Bool)
    (out : List (E × Option E × List (Stmt ι E))), arms (before ++ .mk p g q b :: after) = .ok (r, out) →
    (∀ p g q b, Arm.mk p g q b ∈ before → H.pick ρ x p g = none) → runArms H ρ x out = runBlock H ρ' ss := by
  induction before with
  | nil =>
    intro r out h _
    rw [List.nil_append, arms] at h
    obtain ⟨e, h1, h2⟩ := ok_bind h
    obtain ⟨⟨r1, s1⟩, h3, h4⟩ := ok_bind h2
    obtain ⟨⟨r2, o2⟩, h5, h6⟩ := ok_bind h4
    cases h6
    obtain ⟨e', h1', h2'⟩ := ok_bind (x := nodes (startEnc q) b) (f := Enc.intoOutput) hq
    rw [h1'] at h1
    cases h1
    rw [h2'] at h3
    cases h3
    rw [runArms, hpick]
    rfl
  | cons a before ih =>
    obtain ⟨p1, g1, q1, b1⟩ := a
    intro r out h hp
    rw [List.cons_append, arms] at h
    obtain ⟨e, h1, h2⟩ := ok_bind h
    obtain ⟨⟨r1, s1⟩, h3, h4⟩ := ok_bind h2
    obtain ⟨⟨r2, o2⟩, h5, h6⟩ := ok_bind h4
    cases h6
    rw [runArms, hp p1 g1 q1 b1 (by simp)]
    exact ih _ _ h5 (fun p g q b hb => hp p g q b (by simp [hb]))

theorem fills_match (H : Host ι E Env) (ρ : Env) (x : E) (as : List (Arm E)) (ht : emptyTextArms as = false) (r : Bool)
    (out : List (E × Option E × List (Stmt ι E))) (h : arms as = .ok (r, out)) :
    Fills H ρ (fun cur => .select cur x as) (runArms H ρ x out) := by
  refine ⟨fun _ => rfl, fun _ => by rw [emptyTextNode]; exact ht,
    fun cur => ⟨false || r, [.select x out], ?_, by simp [runBlock, runStmt], rfl⟩⟩
  unfold Macro.quote
  rw [nodes_one, Macro.node, h]
  rfl

end Genco.Macro
