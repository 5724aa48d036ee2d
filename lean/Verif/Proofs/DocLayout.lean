import Verif.Proofs.TemplateLoop
import Verif.Proofs.Void
import Verif.Proofs.SourceFile
import Verif.Spec.Doc

/-!
# Templates in source text: the layout

Pieces may be longer than a line here.
-/

set_option autoImplicit false

namespace Genco.Proofs.DocFile

open Genco Macro Spec Spec.MacroFile Spec.Template Genco.Proofs Genco.Proofs.TextFile

variable {ι E Env : Type}

/-- A piece at a place that does the calls, and the variables behind it. -/
structure Acts (H : Host ι E Env) (ρ : Env) (n : Node E) (cur : Cur) (cs : List (Call ι)) (ρ' : Env) : Prop where
  step : ∃ as, stepOf H n = some [(cur, as)] ∧ perform ρ as = marks cs ∧ Macro.behind ρ as = ρ'
  ink : emptyTextNode n = false
  full : ∀ c ∈ cs, ¬ EmptyCall c

theorem acts_fills {H : Host ι E Env} (hv : ∀ ρ e, ∀ c ∈ H.value ρ e, ¬ EmptyCall c)
    (hs : ∀ ρ e, ∀ c ∈ H.scope ρ e, ¬ EmptyCall c) {ρ : Env} {n : Cur → Node E} {cs : List (Call ι)}
    (h : Fills H ρ n cs) (cur : Cur) : Acts H ρ (n cur) cur cs ρ :=
  ⟨stepOf_slot H ρ (fun _ => cs) (.hole 0 n) h cur, h.ink cur,
    slot_full hv hs (C := fun _ => cs) (s := .hole 0 n) (ρ := ρ) h⟩

theorem acts_word (H : Host ι E Env) (ρ : Env) (cur : Cur) {s : Str} (h : s ≠ []) :
    Acts H ρ (.tree cur s) cur [.append (.literal (.static s))] ρ := by
  refine ⟨stepOf_slot H ρ (fun _ => []) (.word s) h cur, rfl, ?_⟩
  intro c hc
  cases List.mem_singleton.1 hc
  intro he
  cases s with
  | nil => exact h rfl
  | cons a s => exact absurd he (by simp [EmptyCall])

theorem acts_bind (H : Host ι E Env) (ρ : Env) (cur : Cur) (pat e : E) :
    Acts H ρ (.bind cur pat e) cur [] (H.bind ρ pat e) :=
  ⟨⟨_, rfl, rfl, rfl⟩, rfl, by simp⟩

/-- Pieces on a line behind a place, with the number of spaces before them. -/
inductive Chain (H : Host ι E Env) : Env → Pos → List (Node E) → List (Nat × Given ι) → Pos → Env → Prop
  | nil {ρ a} : Chain H ρ a [] [] a ρ
  | cons {ρ ρ' ρ'' a n stop g G ns r e} : Acts H ρ n ⟨⟨a.line, a.column + g⟩, stop⟩ G.1 ρ' → Chain H ρ' stop ns r e ρ'' →
    Chain H ρ a (n :: ns) ((g, G) :: r) e ρ''

/-- A line: blank lines above, the column, the first piece and the others. -/
structure GRow (ι : Type) where
  above : Nat
  column : Nat
  first : Given ι
  rest : List (Nat × Given ι)

def gslot (G : Given ι) : Slot (Given ι) := .hole 0 (givenHole G)

def gRest (r : List (Nat × Given ι)) : List (Nat × Slot (Given ι)) := r.map (fun x => (x.1, gslot x.2))

def GRow.row (l : GRow ι) : Row (Given ι) := ⟨l.above, l.column, gslot l.first, gRest l.rest⟩

def gC : (Cur → Node (Given ι)) → List (Call ι) := fun n => (givenOf n).1
def gV : (Cur → Node (Given ι)) → List Str := fun n => (givenOf n).2

/-- Nothing is written. -/
def gVoid : (Cur → Node (Given ι)) → Bool := fun n => (givenOf n).2.isEmpty

/-- Pieces of lines. `base` is the number of the first line. -/
inductive ChainRows (H : Host ι E Env) : Env → Nat → List (Node E) → List (GRow ι) → Env → Prop
  | nil {ρ base} : ChainRows H ρ base [] [] ρ
  | cons {ρ ρ₁ ρ₂ ρ₃ base n stop ns e ms rows} {row : GRow ι} :
    Acts H ρ n ⟨⟨base + row.above, row.column⟩, stop⟩ row.first.1 ρ₁ → Chain H ρ₁ stop ns row.rest e ρ₂ →
    ChainRows H ρ₂ (e.line + 1) ms rows ρ₃ → ChainRows H ρ base (n :: (ns ++ ms)) (row :: rows) ρ₃

theorem chain_laid {H : Host ι E Env} {ρ ρ' : Env} {a e : Pos} {ns : List (Node E)} {r : List (Nat × Given ι)}
    (h : Chain H ρ a ns r e ρ') : ∃ qs as, stepsOf H ns = some qs ∧ perform ρ as = marks (restCalls gC (gRest r)) ∧
      Macro.behind ρ as = ρ' ∧ ∀ finish p past more, laidOut Step.ws finish p past a (qs ++ more) =
        (laidOut Step.ws finish p past e more).map (as ++ ·) := by
  induction h with
  | nil =>
    refine ⟨[], [], rfl, rfl, rfl, fun finish p past more => ?_⟩
    rw [List.nil_append]
    cases laidOut Step.ws finish p past _ more <;> rfl
  | @cons ρ ρ' ρ'' a n stop g G ns r e hn _ ih =>
    obtain ⟨qs, as, h1, h2, h3, h4⟩ := ih
    obtain ⟨bs, b1, b2, b3⟩ := hn.step
    refine ⟨(⟨⟨a.line, a.column + g⟩, stop⟩, bs) :: qs, ((if g = 0 then [] else [WsCall.space]).map Step.ws ++ bs) ++ as,
      stepsOf_cons H _ _ _ _ b1 h1, ?_, ?_, fun finish p past more => ?_⟩
    · rw [perform_append, perform_append, behind_append, behind_ws, perform_gap, b2, b3, h2]
      show _ = marks (restCalls gC ((g, gslot G) :: gRest r))
      have e' : restCalls gC ((g, gslot G) :: gRest r) =
          ((if g = 0 then [] else [WsCall.space]).map WsCall.call ++ G.1) ++ restCalls gC (gRest r) := by
        unfold restCalls
        rw [List.flatMap_cons]
        by_cases hn : g = 0 <;> simp [hn, WsCall.call, slotCalls, gC, givenOf, gslot, givenHole]
      rw [e', marks_append, marks_append]
    · rw [behind_append, behind_append, behind_ws, b3, h3]
    · rw [List.cons_append, laidOut, gapBefore, if_pos rfl, if_pos rfl, Option.bind_some, h4]
      cases laidOut Step.ws finish p past e more with
      | none => rfl
      | some x =>
        show some _ = some _
        congr 1
        by_cases hg : g = 0
        · rw [if_neg (by omega : ¬ a.column < a.column + g), if_pos hg]; simp
        · rw [if_pos (by omega : a.column < a.column + g), if_neg hg]; simp

theorem rows_laid {H : Host ι E Env} {ρ ρ' : Env} {base : Nat} {ns : List (Node E)} {rows : List (GRow ι)}
    (h : ChainRows H ρ base ns rows ρ') : ∀ (p : Nat) (past : List Nat) (a : Pos), a.line + 1 = base →
    Template.Offside (p :: past) (rows.map GRow.row) → ∃ qs as, stepsOf H ns = some qs ∧
      laidOut Step.ws none p past a qs = some as ∧
      perform ρ as = marks (tailCalls gC p past (rows.map GRow.row)) ∧ Macro.behind ρ as = ρ' := by
  induction h with
  | nil =>
    intro p past a _ _
    exact ⟨[], _, rfl, rfl, perform_gap _ _, behind_ws _ _⟩
  | @cons ρ ρ₁ ρ₂ ρ₃ base n stop ns e ms rows row hn hc _ ih =>
    intro p past a ha ho
    obtain ⟨hl, ho⟩ := ho
    have hl : Legal row.column p past := hl
    obtain ⟨qs, as, h1, h2, h3, h4⟩ := chain_laid hc
    obtain ⟨bs, b1, b2, b3⟩ := hn.step
    obtain ⟨qs', as', i1, i2, i3, i4⟩ := ih row.column (p :: past) e rfl ho
    have g1 : ¬ a.line = base + row.above := by omega
    have g2 : ¬ base + row.above < a.line := by omega
    refine ⟨_, ((breakCalls (depth p past) (depth row.column (p :: past))
        (decide (base + row.above - a.line > 1))).map Step.ws ++ bs) ++ (as ++ as'),
      stepsOf_cons H _ _ _ _ b1 (stepsOf_concat H _ _ _ _ h1 i1), by
      rw [List.singleton_append, laidOut, gapBefore, if_neg g1, if_neg g1, if_neg g2, if_neg (not_falls hl), if_pos hl,
        Option.bind_some, h4, i2]; rfl, ?_, ?_⟩
    · rw [List.append_assoc, perform_append, perform_append, perform_append, behind_ws, b2, b3, h2, h3, i3, perform_gap, List.map_cons, tailCalls,
        marks_append, marks_append, marks_append]
      have : decide (base + row.above - a.line > 1) = decide (0 < row.above) := by
        by_cases ha : 0 < row.above
        · rw [decide_eq_true ha, decide_eq_true (by omega)]
        · rw [decide_eq_false ha, decide_eq_false (by omega)]
      rw [this]
      rfl
    · rw [behind_append, behind_append, behind_append, behind_ws, b3, h3, i4]

theorem rows_ink {H : Host ι E Env} {ρ ρ' : Env} {base : Nat} {ns : List (Node E)} {rows : List (GRow ι)}
    (h : ChainRows H ρ base ns rows ρ') : emptyText ns = false := by
  have hc : ∀ {ρ ρ' : Env} {a e : Pos} {ns : List (Node E)} {r : List (Nat × Given ι)}, Chain H ρ a ns r e ρ' → emptyText ns = false := by
    intro ρ ρ' a e ns r h
    induction h with
    | nil => rfl
    | cons hn _ ih => rw [emptyText, hn.ink, ih]; rfl
  induction h with
  | nil => rfl
  | cons hn hr _ ih => rw [emptyText, emptyText_append, hn.ink, hc hr, ih]; rfl

mutual

theorem ink_flatten : ∀ ns : List (Node E), emptyText (flatten ns) = emptyText ns
  | [] => rfl
  | n :: ns => by rw [flatten, emptyText_append, ink_flattenNode n, ink_flatten ns, emptyText]

theorem ink_flattenNode : ∀ n : Node E, emptyText (flattenNode n) = emptyTextNode n
  | .group cur d content => by
    rw [flattenNode, List.cons_append, emptyText, emptyText_append, ink_flatten content, emptyTextNode]
    simp [emptyText, emptyTextNode]
  | .tree cur s => by simp [flattenNode, emptyText]
  | .escape cur => by simp [flattenNode, emptyText]
  | .str cur paren ps => by simp [flattenNode, emptyText]
  | .control cur k => by simp [flattenNode, emptyText]
  | .quoted cur s => by simp [flattenNode, emptyText]
  | .literal cur s => by simp [flattenNode, emptyText]
  | .eval cur x => by simp [flattenNode, emptyText]
  | .scope cur b c => by simp [flattenNode, emptyText]
  | .loop cur p i b => by simp [flattenNode, emptyText]
  | .joined cur p i paren s b => by simp [flattenNode, emptyText]
  | .ifThen cur c t => by simp [flattenNode, emptyText]
  | .ifElse cur c t f => by simp [flattenNode, emptyText]
  | .select cur x as => by simp [flattenNode, emptyText]
  | .bind cur p x => by simp [flattenNode, emptyText]

end

/-- All pieces of a line. -/
def GRow.all (l : GRow ι) : List (Given ι) := l.first :: l.rest.map (·.2)

theorem chain_full {H : Host ι E Env} {ρ ρ' : Env} {a e : Pos} {ns : List (Node E)} {r : List (Nat × Given ι)}
    (h : Chain H ρ a ns r e ρ') : ∀ x ∈ r, ∀ c ∈ x.2.1, ¬ EmptyCall c := by
  induction h with
  | nil => intro x hx; cases hx
  | cons hn _ ih =>
    intro x hx
    rcases List.mem_cons.1 hx with rfl | hx
    · exact hn.full
    · exact ih x hx

theorem row_slots {l : GRow ι} {s : Slot (Given ι)} (h : s ∈ l.row.slots) : ∃ G ∈ l.all, s = gslot G := by
  rcases List.mem_cons.1 h with rfl | h
  · exact ⟨l.first, by simp [GRow.all], rfl⟩
  · obtain ⟨p, hp, rfl⟩ := List.mem_map.1 h
    obtain ⟨x, hx, rfl⟩ := List.mem_map.1 hp
    exact ⟨x.2, by simp only [GRow.all, List.mem_cons, List.mem_map]; exact .inr ⟨x, hx, rfl⟩, rfl⟩

theorem rows_full {H : Host ι E Env} {ρ ρ' : Env} {base : Nat} {ns : List (Node E)} {rows : List (GRow ι)}
    (h : ChainRows H ρ base ns rows ρ') : ∀ l ∈ rows, ∀ G ∈ l.all, ∀ c ∈ G.1, ¬ EmptyCall c := by
  induction h with
  | nil => intro x hx; cases hx
  | cons hn hr _ ih =>
    intro l hl
    rcases List.mem_cons.1 hl with rfl | hl
    · intro G hG
      rcases List.mem_cons.1 hG with rfl | hG
      · exact hn.full
      · obtain ⟨x, hx, rfl⟩ := List.mem_map.1 hG
        exact chain_full hr x hx
    · exact ih l hl

theorem doc_run (H : Host ι E Env) (hv : ∀ ρ e, ∀ c ∈ H.value ρ e, ¬ EmptyCall c)
    (hs : ∀ ρ e, ∀ c ∈ H.scope ρ e, ¬ EmptyCall c) (ρ : Env) {ρ' : Env} {base : Nat} {ns : List (Node E)} {l : GRow ι}
    {ls : List (GRow ι)} (h : ChainRows H ρ base (flatten ns) (l :: ls) ρ')
    (ho : Template.Offside [] ((l :: ls).map GRow.row)) :
    ∃ r ss, Macro.quote none ns = .ok (r, ss) ∧ leave H ρ ss = ρ' ∧
      letters ((runBlock H ρ ss).flatMap callItems) =
        letters ((allCalls gC l.row (ls.map GRow.row)).flatMap callItems) ∧
      (∀ c ∈ runBlock H ρ ss, ¬ EmptyCall c) ∧ marks (runBlock H ρ ss) = marks (allCalls gC l.row (ls.map GRow.row)) := by
  have hk := rows_ink h
  have hf := rows_full h
  obtain ⟨-, q2⟩ := quote_ok H none (nodes_ok H (flatten ns))
  have hq : ∀ ss, ((nodes (startEnc none) (flatten ns)).bind Enc.intoOutput : Except Err (Bool × List (Stmt ι E))) =
      .ok (interpolated (flatten ns), ss) → Macro.quote none (flatten ns) = .ok (interpolated (flatten ns), ss) :=
    fun ss h => h
  cases hfl : flatten ns with
  | nil => rw [hfl] at h; cases h
  | cons n rest =>
    rw [hfl] at h
    cases h with
    | @cons _ ρ₁ ρ₂ _ _ _ stop ns1 e ms _ _ hn hc hr =>
    obtain ⟨qs, as, h1, h2, h3, h4⟩ := chain_laid hc
    obtain ⟨bs, b1, b2, b3⟩ := hn.step
    obtain ⟨qs', as', i1, i2, i3, i4⟩ := rows_laid hr l.column [] e rfl ho
    have hst : stepsOf H (flatten ns) =
        some ([(⟨⟨base + l.above, l.column⟩, stop⟩, bs)] ++ (qs ++ qs')) := by
      rw [hfl]
      exact stepsOf_cons H _ _ _ _ b1 (stepsOf_concat H _ _ _ _ h1 i1)
    have hb : block (Step.ws (ι := ι) (Env := Env)) none
        ([(⟨⟨base + l.above, l.column⟩, stop⟩, bs)] ++ (qs ++ qs')) = some (bs ++ (as ++ as')) := by
      show (laidOut Step.ws none l.column [] stop (qs ++ qs')).map _ = _
      rw [h4, i2]
      rfl
    rw [hst] at q2
    obtain ⟨ss, hq1, he⟩ := q2 _ hb
    have hmk : marks (runBlock H ρ ss) = marks (allCalls gC l.row (ls.map GRow.row)) := by
      rw [← perform_evs, he, perform_append, perform_append, b2, b3, h2, h3, i3, allCalls, marks_append, marks_append]
      rfl
    have hfull := quote_full H hv hs none _ hk _ ss (hq ss hq1) ρ
    refine ⟨_, ss, by rw [quote_flatten]; exact hq ss hq1, ?_, ?_, hfull, hmk⟩
    · rw [← behind_evs, he, behind_append, behind_append, b3, h3, i4]
    · rw [letters_marks _ hfull, letters_marks, hmk]
      · have full : ∀ x ∈ l :: ls, ∀ s ∈ x.row.slots, ∀ c ∈ slotCalls gC s, ¬ EmptyCall c := by
          intro x hx s hs'
          obtain ⟨G, hG, rfl⟩ := row_slots hs'
          exact hf x hx G hG
        intro c hc
        rcases List.mem_append.1 hc with hc | hc
        · exact full l (by simp) _ (by simp [Row.slots, GRow.row]) c hc
        rcases List.mem_append.1 hc with hc | hc
        · refine rest_full gC l.row.rest (fun q hq => full l (by simp) _ ?_) c hc
          simp only [Row.slots, List.mem_cons, List.mem_map]; exact .inr ⟨q, hq, rfl⟩
        · refine tail_full gC _ (fun x hx => ?_) _ _ c hc
          obtain ⟨y, hy, rfl⟩ := List.mem_map.1 hx
          exact full y (by simp [hy])

theorem slot_void (G : Given ι) : (gslot G).void gVoid = G.2.isEmpty := rfl

theorem block_lines_ne {L : Lang ι} {cfg : Config} {cs : List (Call ι)} {vs : List Str}
    (h : Template.BlockOf L cfg cs vs) : vs ≠ [] := by
  have := h.lines
  unfold toVec okOf at this
  split at this
  · cases this
    exact intoVec_ne _
  · cases this

theorem makes_slot {L : Lang ι} {cfg : Config} {G : Given ι} (h : Doc.Makes L cfg G.1 G.2) :
    if (gslot G).void gVoid then slotCalls gC (gslot G) = [] else SlotOk L cfg gC gV (gslot G) := by
  rw [slot_void]
  rcases h with h | ⟨h1, h2⟩
  · rw [if_neg (by simpa using block_lines_ne h)]
    exact slotOk_given h
  · rw [if_pos (by rw [h2]; rfl)]
    exact h1

theorem inserted_rows (l : GRow ι) (ls : List (GRow ι)) : inserted (allCalls gC l.row (ls.map GRow.row)) =
    (l :: ls).flatMap (fun l => l.all.flatMap (fun G => inserted G.1)) := by
  have hi : ∀ x : GRow ι, x.row.slots.flatMap (fun s => inserted (slotCalls gC s)) = x.all.flatMap (fun G => inserted G.1) := by
    intro x
    simp only [Row.slots, GRow.all, GRow.row, gRest, List.flatMap_cons, List.map_map, List.flatMap_map]
    rfl
  rw [inserted_all, ← List.map_cons, List.flatMap_map]
  simp only [hi]

theorem ink_breaks (f : ι → List Str) (w : List WsCall) (h : ∀ c ∈ w, c = .push ∨ c = .line) (r : List (Item ι)) :
    ink f (norm (gapItems w) ++ r) = ink f r := by
  have hr : ∀ w : List WsCall, (∀ c ∈ w, c = .push ∨ c = .line) → (Tokens.fromIter (gapItems w : List (Item ι))).rev = [] ∨
      (Tokens.fromIter (gapItems w : List (Item ι))).rev = [.push] ∨
      (Tokens.fromIter (gapItems w : List (Item ι))).rev = [.line] := by
    intro w
    induction w using List.reverseRecOn with
    | nil => intro _; exact .inl rfl
    | append_singleton w c ih =>
      intro h
      have ih := ih (fun d hd => h d (by simp [hd]))
      have hc := h c (by simp)
      have e : (gapItems (w ++ [c]) : List (Item ι)) = gapItems w ++ [if c = .push then .push else .line] := by
        rcases hc with rfl | rfl <;> simp [gapItems] <;> rfl
      rw [e, Tokens.fromIter_concat]
      rcases hc with rfl | rfl
      · show Tokens.pushRev _ = _ ∨ Tokens.pushRev _ = _ ∨ Tokens.pushRev _ = _
        rcases ih with h | h | h <;> rw [h] <;> simp [Tokens.pushRev]
      · show Tokens.lineRev _ = _ ∨ Tokens.lineRev _ = _ ∨ Tokens.lineRev _ = _
        rcases ih with h | h | h <;> rw [h] <;> simp [Tokens.lineRev]
  rcases hr w h with h | h | h <;> rw [norm_of_rev h] <;> rfl

/-- What pieces in lines make. -/
theorem doc_vec (H : Host ι E Env) (hv : ∀ ρ e, ∀ c ∈ H.value ρ e, ¬ EmptyCall c)
    (hs : ∀ ρ e, ∀ c ∈ H.scope ρ e, ¬ EmptyCall c) (ρ : Env) (L : Lang ι) (hQ : HomQuote L) (cfg : Config)
    {ρ' : Env} {base : Nat} {ns : List (Node E)} {top : List (GRow ι)} {l : GRow ι} {ls : List (GRow ι)}
    (h : ChainRows H ρ base (flatten ns) (top ++ l :: ls) ρ') (ho : Template.Offside [] ((top ++ l :: ls).map GRow.row))
    (hb : ∀ x ∈ top ++ l :: ls, ∀ G ∈ x.all, Doc.Makes L cfg G.1 G.2)
    (htop : Top gVoid l.column (top.map GRow.row)) (hl : l.first.2 ≠ []) (ht : Tidy gVoid l.column (ls.map GRow.row)) :
    ∃ r ss, Macro.quote none ns = .ok (r, ss) ∧ leave H ρ ss = ρ' ∧
      toVec L cfg (history (runBlock H ρ ss)).items =
        some (Template.outLines cfg gV [] (leftRows gVoid none 0 ((top ++ l :: ls).map GRow.row))) ∧
      Uniform L ((runBlock H ρ ss).flatMap callItems) ∧
      (top = [] → Inked gVoid ((l :: ls).map GRow.row) → lastLevel [] ((l :: ls).map GRow.row) = 0 →
        Template.Block L cfg (runBlock H ρ ss)) ∧
      inserted (runBlock H ρ ss) = (top ++ l :: ls).flatMap (fun l => l.all.flatMap (fun G => inserted G.1)) ∧
      leadsWithSpace L.langItem (history (runBlock H ρ ss)).items = false := by
  have hb' : ∀ x ∈ top.map GRow.row ++ l.row :: ls.map GRow.row, ∀ s ∈ x.slots,
      if s.void gVoid then slotCalls gC s = [] else SlotOk L cfg gC gV s := by
    intro x hx s hs'
    rw [← List.map_cons, ← List.map_append] at hx
    obtain ⟨y, hy, rfl⟩ := List.mem_map.1 hx
    obtain ⟨G, hG, rfl⟩ := row_slots hs'
    exact makes_slot (hb y hy G hG)
  have emap : (top ++ l :: ls).map GRow.row = top.map GRow.row ++ l.row :: ls.map GRow.row := by simp
  have hl' : l.row.first.void gVoid = false := by
    show l.first.2.isEmpty = false
    simpa using hl
  obtain ⟨t, ts, w, B, et, hw, hc, v1, v2, v3⟩ := void_calls L hQ cfg gVoid gC gV (top.map GRow.row) l.row (ls.map GRow.row) hb'
    (by rw [← emap]; exact ho) htop hl' ht
  obtain ⟨t', ts', et'⟩ : ∃ t' ts', top ++ l :: ls = t' :: ts' := by cases top <;> exact ⟨_, _, rfl⟩
  rw [← emap, et', List.map_cons] at et
  cases et
  rw [← emap] at v1
  rw [et'] at h ho
  obtain ⟨r, ss, h1, h2, h3, -, -⟩ := doc_run H hv hs ρ h ho
  refine ⟨r, ss, h1, h2, by rw [← cut_vec L hQ cfg v2 h3.symm]; exact v1, cut_uniform v2 h3.symm,
    fun k1 k2 k3 => cut_block (v3 (by rw [k1]; rfl) k2 k3) h3.symm, ?_, ?_⟩
  · rw [et', ← inserted_rows, inserted, ← langs_letters, h3, langs_letters, inserted]
  · apply ink_leads
    have hB : Template.Block L cfg (slotCalls gC l.row.first) := by
      have := hb' l.row (by simp) l.row.first (by simp [Row.slots])
      rw [if_neg (by simp [hl'])] at this
      exact this.block
    rw [← ink_letters, letters_history, h3, hc, List.flatMap_append, letters_append, List.flatMap_append, letters_append]
    have hws : ∀ i ∈ letters ((w.map (WsCall.call (ι := ι))).flatMap callItems), isWs i = true := by
      intro i hi
      obtain ⟨j, hj, hi⟩ := List.mem_flatMap.1 hi
      rw [items_call, gapItems] at hj
      obtain ⟨c, hc, hj⟩ := List.mem_flatMap.1 hj
      rcases hw c hc with rfl | rfl <;> cases List.mem_singleton.1 hj <;> cases List.mem_singleton.1 hi <;> rfl
    refine ink_norm L.langItem _ _ _ hws ?_
    have hb := block_ink hB
    rw [← letters_norm, ink_letters] at hb
    rw [← letters_append, ← letters_norm, ink_letters]
    have e := norm_block hB ((w.map (WsCall.call (ι := ι))).flatMap callItems) []
    rw [List.append_nil] at e
    rw [e, show norm ([] : List (Item ι)) = [] from rfl, List.append_nil, ← norm_history, items_call, ink_breaks _ w hw, hb]

/-- Pieces that make nothing. -/
theorem doc_none (H : Host ι E Env) (hv : ∀ ρ e, ∀ c ∈ H.value ρ e, ¬ EmptyCall c)
    (hs : ∀ ρ e, ∀ c ∈ H.scope ρ e, ¬ EmptyCall c) (ρ : Env) {ρ' : Env} {base : Nat} {ns : List (Node E)} {l : GRow ι}
    (h : ChainRows H ρ base (flatten ns) [l] ρ') (hc : l.first.1 = []) (hr : l.rest = []) :
    ∃ r ss, Macro.quote none ns = .ok (r, ss) ∧ leave H ρ ss = ρ' ∧ runBlock H ρ ss = [] := by
  obtain ⟨r, ss, h1, h2, -, h4, h5⟩ := doc_run H hv hs ρ h trivial
  refine ⟨r, ss, h1, h2, ?_⟩
  have e : allCalls gC l.row ([].map GRow.row) = [] := by
    show l.first.1 ++ (restCalls gC (gRest l.rest) ++ _) = []
    rw [hc, hr]
    rfl
  rw [e] at h5
  cases hb : runBlock H ρ ss with
  | nil => rfl
  | cons c cs =>
    rw [hb] at h4 h5
    have h5 : markOf c ++ marks cs = [] := h5
    rw [List.append_eq_nil_iff] at h5
    have h4 := h4 c (by simp)
    have h5 := h5.1
    unfold markOf at h5
    split at h5
    · exact absurd (show EmptyCall _ by rw [List.map_eq_nil_iff.1 h5]; rfl) h4
    · exact absurd h5 (by simp)

end Genco.Proofs.DocFile
