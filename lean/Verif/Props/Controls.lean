import Verif.Proofs.Controls
import Verif.Props.Sources

/-!
# Control functions (C87)
-/

set_option autoImplicit false

namespace Genco.Props

open Genco Spec Spec.MacroFile Spec.Controls Macro

variable {ι E Env : Type}

namespace Controls

/-- Whether a layout is proper does not depend on what the pieces do. -/
theorem laidOut_some {α β : Type} (ws : WsCall → α) (ws' : WsCall → β) (finish : Option Pos) :
    ∀ (ps : List (Cur × List α)) (qs : List (Cur × List β)) (_ : ps.map Prod.fst = qs.map Prod.fst)
      (p : Nat) (past : List Nat) (stop : Pos),
      (laidOut ws finish p past stop ps).isSome = (laidOut ws' finish p past stop qs).isSome := by
  intro ps
  induction ps with
  | nil =>
    intro qs h p past stop
    cases qs with
    | cons q qs => cases h
    | nil =>
      cases finish with
      | none => rfl
      | some f => simp [laidOut]
  | cons x ps ih =>
    intro qs h p past stop
    cases qs with
    | nil => cases h
    | cons y qs =>
      obtain ⟨c, u⟩ := x
      obtain ⟨d, v⟩ := y
      obtain ⟨h1, h2⟩ := List.cons.inj h
      have h1 : c = d := h1
      subst h1
      simp only [laidOut]
      cases gapBefore p past stop c.start with
      | none => rfl
      | some w =>
        simp only [Option.bind_some, Option.isSome_map]
        split
        · exact ih qs h2 _ _ _
        · exact ih qs h2 _ _ _

theorem block_some {α β : Type} (ws : WsCall → α) (ws' : WsCall → β) (span : Option (Pos × Pos))
    (ps : List (Cur × List α)) (qs : List (Cur × List β)) (h : ps.map Prod.fst = qs.map Prod.fst) :
    (block ws span ps).isSome = (block ws' span qs).isSome := by
  unfold block
  cases span with
  | some f => exact laidOut_some ws ws' _ ps qs h _ _ _
  | none =>
    cases ps with
    | nil =>
      cases qs with
      | nil => rfl
      | cons q qs => cases h
    | cons x ps =>
      cases qs with
      | nil => cases h
      | cons y qs =>
        obtain ⟨c, u⟩ := x
        obtain ⟨d, v⟩ := y
        obtain ⟨h1, h2⟩ := List.cons.inj h
        have h1 : c = d := h1
        subst h1
        simp only [Option.isSome_map]
        exact laidOut_some ws ws' none ps qs h2 _ _ _

theorem accepted_iff (H : Host ι E Env) (span : Option Cur) (ns : List (Node E)) :
    (∃ r ss, Macro.quote (ι := ι) span ns = .ok (r, ss)) ↔ (quoted H span ns).isSome = true := by
  obtain ⟨h1, h2⟩ := C55_meaning H span ns
  cases hq : quoted H span ns with
  | none =>
    obtain ⟨x, hx⟩ := h1 hq
    rw [hx]
    simp
  | some as =>
    obtain ⟨ss, hs, -⟩ := h2 as hq
    exact ⟨fun _ => rfl, fun _ => ⟨_, ss, hs⟩⟩

theorem quoted_pieces (H : Host ι E Env) (ps : List (Piece E)) :
    quoted H none (ps.map nodeOf) = block .ws none (ps.map (stepsFor H)) := by
  rw [quoted, stepsOf_pieces]; rfl

theorem fst_steps (H : Host ι E Env) (ps : List (Piece E)) : (ps.map (stepsFor H)).map Prod.fst = ps.map Prod.fst := by
  induction ps with
  | nil => rfl
  | cons q ps ih =>
    rw [List.map_cons, List.map_cons, List.map_cons, ih]
    obtain ⟨cur, b⟩ := q
    cases b <;> rfl

theorem emptyText_pieces (ps : List (Piece E)) : emptyText (ps.map nodeOf) = false := by
  induction ps with
  | nil => rfl
  | cons q ps ih =>
    obtain ⟨cur, b⟩ := q
    cases b <;> simpa [nodeOf, emptyTextNode, emptyText] using ih

/-- Whitespace asked for on one line, with the control functions in it. -/
def Asked (w : List WsCall) (ks : List ControlKind) : Prop :=
  (∀ c ∈ w, c.isInd = false) ∧ (.line ∈ w ↔ .line ∈ ks) ∧ (.push ∈ w ↔ .push ∈ ks) ∧
    (w = [] ∧ ks = [] ∨ ∃ v k, w = v ++ [request k] ∧ ks.getLast? = some k)

theorem sinceInd_flat {w : List WsCall} (h : ∀ c ∈ w, c.isInd = false) : sinceInd w = w := by
  unfold sinceInd
  have : w.reverse.takeWhile (fun c => !c.isInd) = w.reverse := by
    have := List.takeWhile_append_of_pos (p := fun c : WsCall => !c.isInd) (l₁ := w.reverse) (l₂ := [])
      (fun c hc => by simp [h c (List.mem_reverse.1 hc)])
    simpa using this
  rw [this, List.reverse_reverse]

theorem net_flat {w : List WsCall} (h : ∀ c ∈ w, c.isInd = false) : net w = 0 := by
  have h1 : w.count .indent = 0 := List.count_eq_zero.2 (fun hm => by simpa [WsCall.isInd] using h _ hm)
  have h2 : w.count .unindent = 0 := List.count_eq_zero.2 (fun hm => by simpa [WsCall.isInd] using h _ hm)
  simp [net, h1, h2]

theorem separator_one (cfg : Config) {w : List WsCall} {ks : List ControlKind} (h : Asked w ks) (b : Prop) [Decidable b] :
    separator cfg 0 (w ++ if b then [.space] else []) =
      (if .line ∈ ks then cfg.newline ++ cfg.newline else if .push ∈ ks then cfg.newline else []) ++
      (if b ∨ ks.getLast? = some .space then [' '] else []) := by
  obtain ⟨h1, h2, h3, h4⟩ := h
  have hf : ∀ c ∈ w ++ (if b then [WsCall.space] else []), c.isInd = false := by
    intro c hc
    rcases List.mem_append.1 hc with hc | hc
    · exact h1 c hc
    · split at hc
      · rw [List.mem_singleton.1 hc]; rfl
      · cases hc
  have m0 : marginText cfg 0 = [] := by unfold marginText; cases cfg.indentation <;> simp
  have hl : WsCall.line ∈ w ++ (if b then [WsCall.space] else []) ↔ ControlKind.line ∈ ks := by
    rw [← h2]; by_cases hb : b <;> simp [hb]
  have hp : WsCall.push ∈ w ++ (if b then [WsCall.space] else []) ↔ ControlKind.push ∈ ks := by
    rw [← h3]; by_cases hb : b <;> simp [hb]
  have hs : gapSpaces (w ++ (if b then [WsCall.space] else [])) = if b ∨ ks.getLast? = some .space then 1 else 0 := by
    unfold gapSpaces
    by_cases hb : b
    · simp [hb]
    · rw [if_neg hb, List.append_nil]
      rcases h4 with ⟨rfl, rfl⟩ | ⟨v, k, rfl, hk⟩
      · simp [hb]
      · rw [hk]
        cases k <;> simp [hb, request]
  unfold separator
  rw [hs]
  unfold gapBreaks
  rw [sinceInd_flat hf, net_flat hf]
  simp only [hl, hp, m0, ne_eq, not_true_eq_false, or_false, ite_self, List.append_nil]
  congr 1
  · split
    · simp
    · split <;> simp
  · split <;> rfl

theorem laid_one (cfg : Config) (say : E → Str) (l : Nat) : ∀ (ps : List (Piece E)) (_ : ∀ q ∈ ps, On l q) (p : Nat)
    (stop : Pos) (_ : stop.line = l) (w : List WsCall) (ks : List ControlKind) (_ : Asked w ks),
    laid cfg say p [] stop w ps = laidOne cfg say stop.column ks ps := by
  intro ps
  induction ps with
  | nil => intros; rfl
  | cons q ps ih =>
    intro ho p stop hst w ks ha
    obtain ⟨cur, b⟩ := q
    obtain ⟨o1, o2⟩ : cur.start.line = l ∧ cur.stop.line = l := ho _ (List.mem_cons_self ..)
    have ih := ih (fun q hq => ho q (List.mem_cons_of_mem _ hq))
    have e : stop.line = cur.start.line := by rw [hst, o1]
    have hg : gapBefore p [] stop cur.start = some (if stop.column < cur.start.column then [.space] else []) := by
      unfold gapBefore; rw [if_pos e]
    have d0 : depth p [] = 0 := rfl
    have z : Asked [] [] := ⟨by simp, by simp, by simp, .inl ⟨rfl, rfl⟩⟩
    unfold laid laidOne
    simp only [if_pos e, hg, Option.getD_some, d0]
    cases b with
    | text s =>
      dsimp only
      rw [separator_one cfg ha, ih p cur.stop o2 [] [] z]
    | value v =>
      dsimp only
      rw [separator_one cfg ha, ih p cur.stop o2 [] [] z]
    | control k =>
      dsimp only
      refine ih p cur.stop o2 _ _ ⟨?_, ?_, ?_, .inr ⟨_, k, rfl, by simp⟩⟩
      · intro c hc
        rcases List.mem_append.1 hc with hc | hc
        · rcases List.mem_append.1 hc with hc | hc
          · exact ha.1 c hc
          · split at hc
            · rw [List.mem_singleton.1 hc]; rfl
            · cases hc
        · rw [List.mem_singleton.1 hc]; cases k <;> rfl
      · simp only [List.mem_append, ha.2.1, List.mem_singleton]
        have : ¬ WsCall.line ∈ (if stop.column < cur.start.column then [WsCall.space] else []) := by split <;> simp
        have hk : WsCall.line = request k ↔ ControlKind.line = k := by cases k <;> simp [request]
        simp only [this, or_false, hk]
      · simp only [List.mem_append, ha.2.2.1, List.mem_singleton]
        have : ¬ WsCall.push ∈ (if stop.column < cur.start.column then [WsCall.space] else []) := by split <;> simp
        have hk : WsCall.push = request k ↔ ControlKind.push = k := by cases k <;> simp [request]
        simp only [this, or_false, hk]

theorem gap_same (past : List Nat) {stop start : Pos} (hl : stop.line < start.line) :
    gapBefore start.column past stop start = some [if stop.line + 1 < start.line then .line else .push] := by
  unfold gapBefore
  have hd : depth start.column (start.column :: past) = depth start.column past := by
    simp [depth, enclosing]
  rw [if_neg (by omega), if_neg (by omega), if_neg (fun h => Nat.lt_irrefl _ h.1), if_pos (.inr (.inl rfl)), hd]
  unfold breakCalls
  rw [if_neg (Nat.lt_irrefl _), if_pos rfl]
  by_cases h : stop.line + 1 < start.line
  · rw [if_pos h, if_pos (by simp; omega)]
  · rw [if_neg h, if_neg (by simp; omega)]

end Controls

open Controls

/-- C87. Control functions are laid out like tokens: pieces are accepted exactly if tokens in
their places are. -/
theorem C87_accepted (H : Host ι E Env) (ps : List (Piece E)) :
    (∃ r ss, Macro.quote (ι := ι) none (ps.map nodeOf) = .ok (r, ss)) ↔
      ∀ a q b, ps = a ++ q :: b → Follows (q.1, []) (a.reverse.map fun q => (q.1, [])) := by
  rw [accepted_iff H, quoted_pieces]
  have e : (quoted (ι := ι) H none (tokens (ps.map fun q => (q.1, [])))).isSome =
      (block .ws none (ps.map (stepsFor H))).isSome := by
    rw [quoted_tokens, Option.isSome_map]
    refine block_some _ _ none _ _ ?_
    rw [fst_steps]
    unfold tokMarks
    simp [List.map_map, Function.comp_def]
  rw [← e, ← accepted_iff H, C53_accepted H]
  constructor
  · intro h a q b hab
    have := h (a.map fun q => (q.1, [])) (q.1, []) (b.map fun q => (q.1, [])) (by rw [hab]; simp)
    simpa [List.map_reverse] using this
  · intro h a t b hab
    obtain ⟨a', l, rfl, rfl, hl⟩ := List.map_eq_append_iff.1 hab
    obtain ⟨q, b', rfl, rfl, rfl⟩ := List.map_eq_cons_iff.1 hl
    have := h a' q b' rfl
    simpa [List.map_reverse] using this

/-- C87. Between two texts is the whitespace that the layout of the source and the control
functions between them ask for, and nothing else: a blank line if one of them asks for it behind
the last change of the level, otherwise a line break if one asks for it or the level changes,
then a space if the last one asks for it. -/
theorem C87_controls (H : Host ι E Env) (hv : ∀ ρ e, ∀ c ∈ H.value ρ e, ¬ EmptyCall c)
    (hs : ∀ ρ e, ∀ c ∈ H.scope ρ e, ¬ EmptyCall c) (ρ : Env) (L : Lang ι) (cfg : Config) (x : E → ItemStr)
    (c : Cur) (s : Str) (ps : List (Piece E)) (h0 : s ≠ []) (ht : ∀ q ∈ ps, ∀ s, q.2 = .text s → s ≠ [])
    (he : ∀ q ∈ ps, ∀ e, q.2 = .value e → H.value ρ e = [.append (.literal (x e))] ∧ (x e).text ≠ [])
    (r : Bool) (ss : List (Stmt ι E)) (h : Macro.quote none (((c, .text s) :: ps).map nodeOf) = .ok (r, ss)) :
    toString L cfg (history (runBlock H ρ ss)).items =
      some (s ++ laid cfg (fun e => (x e).text) c.start.column [] c.stop [] ps) := by
  have hn := C55_no_empty_partial H hv hs none _ (emptyText_pieces _) r ss h ρ
  obtain ⟨-, qs, as, hq, ha, hm⟩ := accepted H h
  rw [stepsOf_pieces] at hq
  cases hq
  have ha : (laidOut Step.ws none c.start.column [] c.stop (ps.map (stepsFor H))).map (Step.text s ++ ·) = some as := ha
  obtain ⟨rest, hr, rfl⟩ := Option.map_eq_some_iff.1 ha
  obtain ⟨ds, h1, h2, h3, h4⟩ := laid_calls H ρ L cfg x ps ht he _ _ _ rest hr [] (fun _ h => by simp at h)
    (.static s) h0 [] (by rfl)
  have e : marks (runBlock H ρ ss) = marks ([Call.append (.literal (.static s))] ++ ds) := by
    rw [hm, Macro.perform_chars, h1, marks_append]
    simp [marks, markOf]
  have hf : ∀ c ∈ [Call.append (.literal (.static s))] ++ ds, ¬ EmptyCall c := by
    intro c hc
    rcases List.mem_append.1 hc with hc | hc
    · rw [List.mem_singleton.1 hc]
      intro h; injection h with h; injection h with h; injection h with h; exact h0 h
    · exact h3 c hc
  rw [toString_marks L cfg e hn hf (plainCalls_append.2 ⟨plainCalls_lit _, h2⟩)]
  simp only [List.nil_append, List.map_nil, List.append_nil] at h4
  rw [h4]
  rw [C13_layout L cfg _ (plain_history (plainCalls_lit _))]
  have : (history [Call.append (.literal (.static s))]).items.flatMap (plainActs L.langItem) = [.text s] := rfl
  rw [this]
  have m0 : marginText cfg 0 = [] := by unfold marginText; cases cfg.indentation <;> simp
  have g0 : gap [] = [] := rfl
  simp [render, pieces, piecesFrom, h0, place, Piece.render, breaks, isFirst, level, lineStart, seps, m0, g0]

/-- C87. On one line, as everything is for a compiler without line numbers, all pieces are
accepted. Two texts are on different lines exactly if there is `$['\n']` or `$['\r']` between
them, with an empty line exactly if there is `$['\n']`, however many of them. There is a space
in front of a text exactly if there are spaces in front of it in the source, or `$[' ']`. -/
theorem C87_one_line (H : Host ι E Env) (hv : ∀ ρ e, ∀ c ∈ H.value ρ e, ¬ EmptyCall c)
    (hs : ∀ ρ e, ∀ c ∈ H.scope ρ e, ¬ EmptyCall c) (ρ : Env) (L : Lang ι) (cfg : Config) (x : E → ItemStr)
    (l : Nat) (c : Cur) (s : Str) (ps : List (Piece E)) (hc : c.stop.line = l) (hl : ∀ q ∈ ps, On l q) (h0 : s ≠ [])
    (ht : ∀ q ∈ ps, ∀ s, q.2 = .text s → s ≠ [])
    (he : ∀ q ∈ ps, ∀ e, q.2 = .value e → H.value ρ e = [.append (.literal (x e))] ∧ (x e).text ≠ []) :
    ∃ r ss, Macro.quote none (((c, .text s) :: ps).map nodeOf) = .ok (r, ss) ∧
      toString L cfg (history (runBlock H ρ ss)).items =
        some (s ++ laidOne cfg (fun e => (x e).text) c.stop.column [] ps) := by
  have ha : ∃ r ss, Macro.quote (ι := ι) none (((c, .text s) :: ps).map nodeOf) = .ok (r, ss) := by
    rw [C87_accepted H]
    intro a q b hab
    cases ha : a.reverse with
    | nil => trivial
    | cons z r =>
      rw [List.map_cons]
      obtain ⟨p, past, hp⟩ := lineColumns_cons (z.1, []) (r.map fun q : Piece E => (q.1, ([] : Str)))
      unfold Follows
      rw [hp]
      refine .inl ?_
      have hz : z ∈ a := by rw [← List.mem_reverse, ha]; exact List.mem_cons_self ..
      have h1 : z.1.stop.line = l := by
        have : z ∈ (c, Controls.Bit.text s) :: ps := by rw [hab]; exact List.mem_append_left _ hz
        rcases List.mem_cons.1 this with rfl | h
        · exact hc
        · exact (hl z h).2
      have h2 : q.1.start.line = l := by
        cases a with
        | nil => cases hz
        | cons y a =>
          have : q ∈ ps := by
            rw [(List.cons.inj hab).2]; simp
          exact (hl q this).1
      rw [h1, h2]
  obtain ⟨r, ss, h⟩ := ha
  refine ⟨r, ss, h, ?_⟩
  rw [C87_controls H hv hs ρ L cfg x c s ps h0 ht he r ss h,
    laid_one cfg _ l ps hl _ c.stop hc [] [] ⟨by simp, by simp, by simp, .inl ⟨rfl, rfl⟩⟩]

/-- C87. A control function on a line of its own between two texts on lines of the same column:
`$['\n']` makes one empty line, the others nothing that is not there without them. -/
theorem C87_own_line (H : Host ι E Env) (hv : ∀ ρ e, ∀ c ∈ H.value ρ e, ¬ EmptyCall c)
    (hs : ∀ ρ e, ∀ c ∈ H.scope ρ e, ¬ EmptyCall c) (ρ : Env) (L : Lang ι) (cfg : Config)
    (a b c : Cur) (s t : Str) (k : ControlKind) (h0 : s ≠ []) (h1 : t ≠ [])
    (l1 : a.stop.line < b.start.line) (l2 : b.stop.line < c.start.line)
    (c1 : b.start.column = a.start.column) (c2 : c.start.column = a.start.column) :
    ∃ r ss, Macro.quote none ([(a, .text s), (b, .control k), (c, .text t)].map (nodeOf (E := E))) = .ok (r, ss) ∧
      toString L cfg (history (runBlock H ρ ss)).items = some (s ++ cfg.newline ++
        (if k = .line ∨ a.stop.line + 1 < b.start.line ∨ b.stop.line + 1 < c.start.line then cfg.newline else []) ++ t) := by
  have n1 : ¬ a.stop.line = b.start.line := by omega
  have n2 : ¬ b.stop.line = c.start.line := by omega
  have g1 : gapBefore a.start.column [] a.stop b.start =
      some [if a.stop.line + 1 < b.start.line then .line else .push] := by rw [← c1]; exact gap_same _ l1
  have g2 : gapBefore b.start.column [a.start.column] b.stop c.start =
      some [if b.stop.line + 1 < c.start.line then .line else .push] := by rw [c1, ← c2]; exact gap_same _ l2
  have d0 : depth c.start.column [b.start.column, a.start.column] = 0 := by
    rw [c1, c2]; unfold depth; simp [enclosing]
  have ha : ∃ r ss, Macro.quote (ι := ι) none ([(a, .text s), (b, .control k), (c, .text t)].map (nodeOf (E := E))) =
      .ok (r, ss) := by
    rw [accepted_iff H, quoted_pieces]
    simp only [List.map_cons, List.map_nil, stepsFor, block, laidOut, if_neg n1, if_neg n2, g1, g2, Option.bind_some,
      Option.map_some, Option.isSome_some]
  obtain ⟨r, ss, h⟩ := ha
  refine ⟨r, ss, h, ?_⟩
  rw [C87_controls H hv hs ρ L cfg (fun _ => .static []) a s _ h0 ?_ ?_ r ss h]
  · have m0 : marginText cfg 0 = [] := by unfold marginText; cases cfg.indentation <;> simp
    simp only [laid, if_neg n1, if_neg n2, g1, g2, d0, Option.getD_some, List.nil_append, List.append_nil]
    by_cases x : a.stop.line + 1 < b.start.line <;> by_cases y : b.stop.line + 1 < c.start.line <;> cases k <;>
      simp [x, y, separator, gapBreaks, gapSpaces, sinceInd, net, request, WsCall.isInd, m0]
  · intro q hq u hu
    simp only [List.mem_cons, List.not_mem_nil, or_false] at hq
    rcases hq with rfl | rfl
    · cases hu
    · cases hu; exact h1
  · intro q hq e hu
    simp only [List.mem_cons, List.not_mem_nil, or_false] at hq
    rcases hq with rfl | rfl <;> cases hu

/-- C87. What is asked for in front of a change of the level is lost. -/
theorem C87_lost_negative :
    MacroSample.out none ([((MacroSample.tok 1 0 "a").1, .text ['a']), (⟨⟨1, 1⟩, ⟨1, 8⟩⟩, .control .line),
      ((MacroSample.tok 2 2 "b").1, .text ['b'])].map nodeOf) = some ["a".toList, "    b".toList] := by decide +kernel

/-! ## Samples -/

namespace ControlSample

open MacroSample

/-- The places of pieces on a line. -/
def one : List (Piece Str) :=
  [(⟨⟨1, 2⟩, ⟨1, 9⟩⟩, .control .push), (⟨⟨1, 10⟩, ⟨1, 17⟩⟩, .control .line), (⟨⟨1, 18⟩, ⟨1, 20⟩⟩, .text "bc".toList),
    (⟨⟨1, 20⟩, ⟨1, 26⟩⟩, .control .space), (⟨⟨1, 26⟩, ⟨1, 28⟩⟩, .value "x".toList), (⟨⟨1, 28⟩, ⟨1, 35⟩⟩, .control .push),
    (⟨⟨1, 35⟩, ⟨1, 36⟩⟩, .text "d".toList)]

def first : Cur := ⟨⟨1, 0⟩, ⟨1, 1⟩⟩

/-- `a $['\r'] $['\n'] bc$[' ']$x$['\r']d` -/
example : laidOne cfg (fun e => e) first.stop.column [] one = "\n\n bc x\nd".toList := by decide +kernel

example : out none (((first, .text ['a']) :: one).map nodeOf) =
    some ["a".toList, [], " bc x".toList, "d".toList] := by decide +kernel

example : (∀ q ∈ one, On 1 q) ∧ (∀ q ∈ one, ∀ s, q.2 = .text s → s ≠ []) ∧
    ∀ q ∈ one, ∀ e, q.2 = .value e →
      host.value 0 e = [.append (.literal (.box (e ++ [])))] ∧ (ItemStr.box (e ++ [])).text ≠ [] := by
  refine ⟨?_, ?_, ?_⟩
  · unfold On; decide
  · intro q hq s hs
    simp only [one, List.mem_cons, List.not_mem_nil, or_false] at hq
    rcases hq with rfl | rfl | rfl | rfl | rfl | rfl | rfl <;> cases hs <;> decide
  · intro q hq e he
    simp only [one, List.mem_cons, List.not_mem_nil, or_false] at hq
    rcases hq with rfl | rfl | rfl | rfl | rfl | rfl | rfl <;> first | (cases he; done) | (cases he; exact ⟨rfl, by decide⟩)

/-- A control function on a line of its own, one behind a line, and one in front of a line that is
further out. -/
def lines : List (Piece Str) :=
  [(⟨⟨2, 0⟩, ⟨2, 7⟩⟩, .control .line), (⟨⟨3, 0⟩, ⟨3, 1⟩⟩, .text "b".toList), (⟨⟨4, 2⟩, ⟨4, 3⟩⟩, .text "c".toList),
    (⟨⟨4, 3⟩, ⟨4, 10⟩⟩, .control .line), (⟨⟨5, 2⟩, ⟨5, 3⟩⟩, .text "d".toList), (⟨⟨6, 0⟩, ⟨6, 7⟩⟩, .control .line),
    (⟨⟨6, 7⟩, ⟨6, 8⟩⟩, .text "e".toList)]

example : (out none (((first, .text ['a']) :: lines).map nodeOf)).map (['\n'].intercalate ·) =
    some ("a".toList ++ laid cfg (fun e => e) 0 [] first.stop [] lines) := by decide +kernel

example : "a".toList ++ laid cfg (fun e => e) 0 [] first.stop [] lines = "a\n\nb\n    c\n\n    d\n\ne".toList := by
  decide +kernel

/-- From characters, for both kinds of compilers. -/
def text : Invocation := ⟨⟨1, 0, 0⟩, [c!"a;$['\\n']b;$['\\r']", c!"  c;", c!"$['\\n']", c!"d;$[' ']e;"]⟩

example : (text.make .stable cHost 0).bind (fun t => toVec C.lang cfg t.items) =
    some [c!"a;", [], c!"b;", c!" c;", [], c!" d; e;"] := by decide +kernel

example : (text.make .nightly cHost 0).bind (fun t => toVec C.lang cfg t.items) =
    some [c!"a;", [], c!"b;", c!"    c;", [], c!"d; e;"] := by decide +kernel

end ControlSample

end Genco.Props
