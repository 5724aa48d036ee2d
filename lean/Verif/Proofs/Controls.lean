import Verif.Spec.Controls
import Verif.Props.Macro
import Verif.Props.Gaps
import Verif.Props.Writers

/-!
# Control functions among texts
-/

set_option autoImplicit false

namespace Genco.Spec.Controls

open Genco Genco.Macro MacroFile Props Tokens

variable {ι E Env : Type}

/-- Whitespace in the end is not written. -/
theorem trailing (L : Lang ι) (cfg : Config) (cs : List (Call ι)) (hp : PlainCalls cs) (a : ItemStr) (w : List WsCall) :
    toString L cfg (history (cs ++ [.append (.literal a)] ++ w.map WsCall.call)).items =
      toString L cfg (history (cs ++ [.append (.literal a)])).items := by
  have p1 : PlainCalls (cs ++ [.append (.literal a)]) :=
    plainCalls_append.2 ⟨hp, plainCalls_lit a⟩
  have p2 : PlainCalls (cs ++ [.append (.literal a)] ++ w.map WsCall.call) :=
    plainCalls_append.2 ⟨p1, plainCalls_ws w⟩
  rw [C13_layout _ _ _ (plain_history p1), C13_layout _ _ _ (plain_history p2)]
  congr 1
  have hrev1 : (history (cs ++ [.append (.literal a)])).rev = .literal a :: (history cs).rev := by
    rw [history_append]; rfl
  obtain ⟨r, hr, hshape⟩ := gap_shape (b := .literal a :: (history cs).rev) rfl
    (history (cs ++ [.append (.literal a)])) hrev1 w.reverse
  rw [List.reverse_reverse, ← history_append, net_reverse] at hshape
  have hi : (indPart (net w) : List (Item ι)).reverse.flatMap (plainActs L.langItem) =
      if net w ≠ 0 then [Act.indent (net w)] else [] := by
    unfold indPart
    by_cases hz : net w = 0 <;> simp [hz, plainActs]
  have hsoft : r.reverse.flatMap (plainActs L.langItem) = (r.map softAct).reverse := by
    rw [soft_acts _ _ (fun i hi => hr.soft i (by simpa using hi)), List.map_reverse]
  have hinv : ∀ x ∈ (if net w ≠ 0 then [Act.indent (net w)] else []) ++ (r.map softAct).reverse, visible x = false := by
    intro x hx
    simp only [List.mem_append, List.mem_reverse, List.mem_map] at hx
    rcases hx with hx | ⟨i, _, rfl⟩
    · split at hx
      · simp only [List.mem_singleton] at hx; subst hx; rfl
      · simp at hx
    · cases i <;> rfl
  simp only [items, hrev1, hshape, List.reverse_cons, List.reverse_append, List.flatMap_append,
    List.flatMap_cons, List.flatMap_nil, List.append_nil, hi, hsoft]
  generalize (if net w ≠ 0 then [Act.indent (net w)] else []) = x at hinv
  generalize (r.map softAct).reverse = y at hinv
  rw [List.append_assoc]
  simp only [render, pieces]
  rw [piecesFrom_append, piecesFrom_invisible _ _ hinv, List.append_nil]

theorem net_append (a b : List WsCall) : net (a ++ b) = net a + net b := by
  simp only [net, List.count_append]; omega

theorem indSum_ws (w : List WsCall) : indSum ((w.map (WsCall.call (ι := ι))).flatMap callItems) = net w := by
  induction w with
  | nil => rfl
  | cons c w ih =>
    rw [List.map_cons, List.flatMap_cons, indSum_append, ih]
    cases c <;> simp [WsCall.call, callItems, indSum, indOf, net] <;> omega

theorem indentsOf_ws (w : List WsCall) : indentsOf (w.map (wsMark (ι := ι))) = net w := by
  induction w with
  | nil => rfl
  | cons c w ih =>
    rw [List.map_cons]
    cases c <;> simp [wsMark, WsCall.call, indentsOf, ih, net] <;> omega

theorem marks_ws (w : List WsCall) : marks (w.map (WsCall.call (ι := ι))) = w.map (fun c => Mark.call c.call) := by
  induction w with
  | nil => rfl
  | cons c w ih =>
    rw [List.map_cons, List.map_cons, ← ih]
    cases c <;> rfl

theorem full_ws (w : List WsCall) : ∀ c ∈ w.map (WsCall.call (ι := ι)), ¬ EmptyCall c := by
  intro c hc
  obtain ⟨x, -, rfl⟩ := List.mem_map.1 hc
  cases x <;> (intro h; cases h)

/-- What a piece does. -/
def stepsFor (H : Host ι E Env) : Piece E → Cur × List (Step ι Env)
  | (cur, .text s) => (cur, Step.text s)
  | (cur, .value e) => (cur, [fun ρ => (ρ, marks (H.value ρ e))])
  | (cur, .control k) => (cur, [Step.call (request k).call])

theorem stepsOf_pieces (H : Host ι E Env) (ps : List (Piece E)) :
    stepsOf H (ps.map nodeOf) = some (ps.map (stepsFor H)) := by
  induction ps with
  | nil => rfl
  | cons q ps ih =>
    have : stepOf H (nodeOf q) = some [stepsFor H q] := by
      obtain ⟨cur, b⟩ := q
      cases b with
      | control k => cases k <;> rfl
      | _ => rfl
    rw [List.map_cons, stepsOf, this, ih]
    rfl

theorem separator_gap (cfg : Config) (l : Int) (k : Nat) (w : List WsCall) (h : l + net w = k) :
    gapText cfg l w = separator cfg k w := by
  unfold gapText separator
  rw [h, Int.toNat_natCast]

theorem behind_chars (s : Str) (ρ : Env) : Macro.behind (ι := ι) ρ (Step.text s) = ρ := by
  induction s with
  | nil => rfl
  | cons c s ih => exact ih

theorem perform_chars (s : Str) (ρ : Env) : perform (ι := ι) ρ (Step.text s) = s.map Mark.char := by
  induction s with
  | nil => rfl
  | cons c s ih => exact congrArg (Mark.char c :: ·) ih

theorem perform_gap (w : List WsCall) (b r : List (Step ι Env)) (ρ : Env) :
    perform ρ (w.map Step.ws ++ b ++ r) = marks (w.map WsCall.call) ++ perform ρ (b ++ r) := by
  rw [List.append_assoc, perform_append, perform_ws, marks_ws]
  congr 2
  induction w with
  | nil => rfl
  | cons c w ih => exact ih

/-- Calls that make the marks of pieces, and what they are rendered to. -/
theorem laid_calls (H : Host ι E Env) (ρ : Env) (L : Lang ι) (cfg : Config) (x : E → ItemStr) :
    ∀ (ps : List (Piece E)) (_ : ∀ q ∈ ps, ∀ s, q.2 = .text s → s ≠ [])
      (_ : ∀ q ∈ ps, ∀ e, q.2 = .value e → H.value ρ e = [.append (.literal (x e))] ∧ (x e).text ≠ [])
      (p : Nat) (past : List Nat) (stop : Pos) (as : List (Step ι Env))
      (_ : laidOut Step.ws none p past stop (ps.map (stepsFor H)) = some as)
      (cs : List (Call ι)) (_ : PlainCalls cs) (a : ItemStr) (_ : a.text ≠ []) (w : List WsCall)
      (_ : indSum (cs.flatMap callItems) + net w = depth p past),
    ∃ ds : List (Call ι), perform ρ as = marks ds ∧ PlainCalls ds ∧ (∀ c ∈ ds, ¬ EmptyCall c) ∧
      toString L cfg (history (cs ++ [.append (.literal a)] ++ w.map WsCall.call ++ ds)).items =
        (toString L cfg (history (cs ++ [.append (.literal a)])).items).map
          (· ++ laid cfg (fun e => (x e).text) p past stop w ps) := by
  intro ps
  induction ps with
  | nil =>
    intro _ _ p past stop as h cs hp a _ w _
    have : as = (List.replicate (depth p past) WsCall.unindent).map Step.ws := (Option.some.inj h).symm
    subst this
    refine ⟨(List.replicate (depth p past) WsCall.unindent).map WsCall.call, ?_, plainCalls_ws _, full_ws _, ?_⟩
    · rw [perform_ws, marks_ws]
    · rw [List.append_assoc, ← List.map_append, trailing L cfg cs hp]
      simp [laid]
  | cons q ps ih =>
    intro ht hv p past stop as h cs hp a ha w hl
    obtain ⟨cur, b⟩ := q
    have ih := ih (fun q hq => ht q (List.mem_cons_of_mem _ hq)) (fun q hq => hv q (List.mem_cons_of_mem _ hq))
    have hcur : (stepsFor H (cur, b)).1 = cur := by cases b <;> rfl
    generalize hst : (stepsFor H (cur, b)).2 = st
    have hq : stepsFor H (cur, b) = (cur, st) := Prod.ext hcur hst
    rw [List.map_cons, hq] at h
    simp only [laidOut, Option.bind_eq_some_iff, Option.map_eq_some_iff] at h
    obtain ⟨g, hg, rest, hr, rfl⟩ := h
    have hlev := indentsOf_gap (ι := ι) hg
    rw [indentsOf_ws] at hlev
    generalize hh : (if stop.line = cur.start.line then (p, past) else (cur.start.column, p :: past)) = here
    have hr : laidOut Step.ws none here.1 here.2 cur.stop (ps.map (stepsFor H)) = some rest := by
      rw [← hh]
      split <;> rename_i hc
      · rwa [if_pos hc] at hr
      · rwa [if_neg hc] at hr
    have hd : depth here.1 here.2 = levelAt p past stop cur.start := by
      rw [← hh]; unfold levelAt; split <;> rfl
    have hnet : indSum (cs.flatMap callItems) + net (w ++ g) = depth here.1 here.2 := by
      rw [net_append, hd]; omega
    have hgap : ∀ {s : Str} {y : ItemStr}, y.text = s → s ≠ [] →
        toString L cfg (history (cs ++ [.append (.literal a)] ++ (w ++ g).map WsCall.call ++ [.append (.literal y)])).items =
        (toString L cfg (history (cs ++ [.append (.literal a)])).items).map
          (· ++ (separator cfg (depth here.1 here.2) (w ++ g) ++ s)) := by
      rintro _ y rfl hs
      rw [C06_gap L cfg cs hp a y ha hs (w ++ g), separator_gap cfg _ _ _ hnet]
      simp only [List.append_assoc]
    have hp1 : PlainCalls (cs ++ [.append (.literal a)] ++ (w ++ g).map WsCall.call) :=
      plainCalls_append.2 ⟨plainCalls_append.2 ⟨hp, plainCalls_lit a⟩, plainCalls_ws _⟩
    have hl1 : indSum ((cs ++ [Call.append (.literal a)] ++ (w ++ g).map WsCall.call).flatMap callItems) +
        net [] = depth here.1 here.2 := by
      rw [List.flatMap_append, List.flatMap_append, indSum_append, indSum_append, indSum_ws, ← hnet]
      have : indSum (([Call.append (.literal a)] : List (Call ι)).flatMap callItems) = 0 := rfl
      rw [this]; simp [net]
    have word : ∀ (y : ItemStr) (ms : List (Mark ι)) (s : Str), y.text = s → s ≠ [] →
        marks [Call.append (.literal y)] = ms → ¬ EmptyCall (ι := ι) (.append (.literal y)) →
        (∀ r, perform ρ (st ++ r) = ms ++ perform ρ r) →
        ∃ ds : List (Call ι), perform ρ (g.map Step.ws ++ st ++ rest) = marks ds ∧ PlainCalls ds ∧
          (∀ c ∈ ds, ¬ EmptyCall c) ∧
          toString L cfg (history (cs ++ [.append (.literal a)] ++ w.map WsCall.call ++ ds)).items =
            (toString L cfg (history (cs ++ [.append (.literal a)])).items).map
              (· ++ (separator cfg (depth here.1 here.2) (w ++ g) ++ s ++
                laid cfg (fun e => (x e).text) here.1 here.2 cur.stop [] ps)) := by
      rintro y _ _ rfl hs rfl hne hst
      obtain ⟨ds, h1, h2, h3, h4⟩ := ih here.1 here.2 cur.stop rest hr _ hp1 y hs [] hl1
      refine ⟨g.map WsCall.call ++ ([Call.append (.literal y)] ++ ds), ?_, ?_, ?_, ?_⟩
      · rw [perform_gap, hst, h1, marks_append, marks_append (ι := ι) [Call.append (.literal y)]]
      · exact plainCalls_append.2 ⟨plainCalls_ws g, plainCalls_append.2 ⟨plainCalls_lit y, h2⟩⟩
      · intro c hc
        rcases List.mem_append.1 hc with hc | hc
        · exact full_ws g c hc
        · rcases List.mem_append.1 hc with hc | hc
          · rw [List.mem_singleton.1 hc]; exact hne
          · exact h3 c hc
      · rw [hgap rfl hs] at h4
        simp only [List.map_nil, List.append_nil, List.map_append, List.append_assoc, Option.map_map] at h4 ⊢
        rw [h4]
        congr 1
        funext o
        simp
    cases b with
    | text s =>
      have hs := ht _ (List.mem_cons_self ..) s rfl
      obtain ⟨ds, h1, h2, h3, h4⟩ := word (.static s) (s.map .char) s rfl hs (by simp [marks, markOf])
        (by intro h; injection h with h; injection h with h; injection h with h; exact hs h)
        (fun r => by
          subst hst
          show perform ρ (Step.text s ++ r) = _
          rw [perform_append, perform_chars, behind_chars])
      refine ⟨ds, h1, h2, h3, ?_⟩
      rw [h4]
      simp only [laid, hh, hg, Option.getD_some]
    | value e =>
      obtain ⟨he, hs⟩ := hv _ (List.mem_cons_self ..) e rfl
      obtain ⟨ds, h1, h2, h3, h4⟩ := word (x e) (marks [.append (.literal (x e))]) _ rfl hs rfl
        (by intro h; injection h with h; injection h with h; rw [h] at hs; exact hs rfl)
        (fun r => by
          subst hst
          show marks (H.value ρ e) ++ perform ρ r = _
          rw [he])
      refine ⟨ds, h1, h2, h3, ?_⟩
      rw [h4]
      simp only [laid, hh, hg, Option.getD_some]
    | control k =>
      have hk : net [request k] = 0 := by cases k <;> rfl
      obtain ⟨ds, h1, h2, h3, h4⟩ := ih here.1 here.2 cur.stop rest hr cs hp a ha (w ++ g ++ [request k])
        (by rw [net_append, hk]; omega)
      refine ⟨g.map WsCall.call ++ ([request k].map WsCall.call ++ ds), ?_, ?_, ?_, ?_⟩
      · rw [perform_gap, marks_append, marks_append, marks_ws [request k], ← h1]
        subst hst
        rfl
      · exact plainCalls_append.2 ⟨plainCalls_ws g, plainCalls_append.2 ⟨plainCalls_ws _, h2⟩⟩
      · intro c hc
        rcases List.mem_append.1 hc with hc | hc
        · exact full_ws g c hc
        · rcases List.mem_append.1 hc with hc | hc
          · exact full_ws _ c hc
          · exact h3 c hc
      · simp only [List.map_append, List.append_assoc] at h4 ⊢
        rw [h4]
        simp only [laid, hh, hg, Option.getD_some, List.append_assoc]

/-- Calls with the same marks are rendered alike. -/
theorem toString_marks (L : Lang ι) (cfg : Config) {cs ds : List (Call ι)} (hm : marks cs = marks ds)
    (hc : ∀ c ∈ cs, ¬ EmptyCall c) (hd : ∀ c ∈ ds, ¬ EmptyCall c) (hp : PlainCalls ds) :
    toString L cfg (history cs).items = toString L cfg (history ds).items := by
  have hp' : PlainCalls cs := by
    intro i hi
    obtain ⟨c, hc', hi⟩ := List.mem_flatMap.1 hi
    by_cases hs : ∃ s, c = .append (.literal (.static s))
    · obtain ⟨s, rfl⟩ := hs
      rw [List.mem_singleton.1 hi]; rfl
    · have hk : markOf c = [.call c] := by
        cases c with
        | append i =>
          cases i with
          | literal l =>
            cases l with
            | «static» s => exact absurd ⟨s, rfl⟩ hs
            | _ => rfl
          | _ => rfl
        | _ => rfl
      have : Mark.call c ∈ marks ds := by
        rw [← hm]
        exact List.mem_flatMap.2 ⟨c, hc', by rw [hk]; exact List.mem_singleton.2 rfl⟩
      obtain ⟨d, hd', he⟩ := List.mem_flatMap.1 this
      have hdc : d = c := by
        cases d with
        | append i =>
          cases i with
          | literal l =>
            cases l with
            | «static» s =>
              obtain ⟨y, -, hy⟩ := List.mem_map.1 he
              cases hy
            | _ => cases List.mem_singleton.1 he; rfl
          | _ => cases List.mem_singleton.1 he; rfl
        | _ => cases List.mem_singleton.1 he; rfl
      subst hdc
      exact hp i (List.mem_flatMap.2 ⟨d, hd', hi⟩)
  rw [C11_string_is_joined_lines, C11_string_is_joined_lines, toVec_marks L cfg cs hc hp', toVec_marks L cfg ds hd hp, hm]

end Genco.Spec.Controls
