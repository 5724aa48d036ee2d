import Verif.Proofs.Gaps
import Verif.Props.Layout
import Verif.Props.Tokens

/-!
# Properties of whitespace calls and interpolated streams (C06, C09, C10, C17)
-/

set_option autoImplicit false

namespace Genco.Props

open Genco Spec Tokens

variable {ι : Type}

/-- Calls that hand over no quote or eval marks. -/
def PlainCalls (cs : List (Call ι)) : Prop := ∀ i ∈ cs.flatMap callItems, isPlain i = true

theorem history_append (cs ds : List (Call ι)) :
    history (cs ++ ds) = ds.foldl Call.run (history cs) := by
  simp [history]

theorem plain_history {cs : List (Call ι)} (h : PlainCalls cs) :
    ∀ i ∈ (history cs).items, isPlain i = true := by
  rw [history_eq]; exact plain_fromIter _ h

theorem plainCalls_append {cs ds : List (Call ι)} :
    PlainCalls (cs ++ ds) ↔ PlainCalls cs ∧ PlainCalls ds := by
  simp only [PlainCalls, List.flatMap_append, List.mem_append]
  exact ⟨fun h => ⟨fun i hi => h i (Or.inl hi), fun i hi => h i (Or.inr hi)⟩,
    fun h i hi => hi.elim (h.1 i) (h.2 i)⟩

theorem plainCalls_ws (w : List WsCall) : PlainCalls (ι := ι) (w.map WsCall.call) := by
  intro i hi
  simp only [List.mem_flatMap, List.mem_map] at hi
  obtain ⟨c, ⟨x, _, rfl⟩, hi⟩ := hi
  cases x <;> (simp only [WsCall.call, callItems, List.mem_singleton] at hi; subst hi; rfl)

theorem plainCalls_lit (s : ItemStr) : PlainCalls (ι := ι) [.append (.literal s)] := by
  intro i hi
  simp only [List.flatMap_cons, List.flatMap_nil, callItems, List.append_nil,
    List.mem_singleton] at hi
  subst hi; rfl

/-- C06. Between two non-empty literals the rendered separator is `gapText`: it
depends on the whitespace calls made in between and on the indentation level,
and on nothing else that happened before. -/
theorem C06_gap (L : Lang ι) (cfg : Config) (cs : List (Call ι)) (hp : PlainCalls cs)
    (a b : ItemStr) (ha : a.text ≠ []) (hb : b.text ≠ []) (w : List WsCall) :
    toString L cfg (history (cs ++ [.append (.literal a)] ++ w.map WsCall.call ++
        [.append (.literal b)])).items =
      (toString L cfg (history (cs ++ [.append (.literal a)])).items).map (fun out =>
        out ++ gapText cfg (indSum (cs.flatMap callItems)) w ++ b.text) := by
  have p1 : PlainCalls (cs ++ [.append (.literal a)]) :=
    plainCalls_append.2 ⟨hp, plainCalls_lit a⟩
  have p2 : PlainCalls (cs ++ [.append (.literal a)] ++ w.map WsCall.call ++
      [.append (.literal b)]) :=
    plainCalls_append.2 ⟨plainCalls_append.2 ⟨p1, plainCalls_ws w⟩, plainCalls_lit b⟩
  rw [C13_layout _ _ _ (plain_history p1), C13_layout _ _ _ (plain_history p2), Option.map_some]
  congr 1
  have hrev1 : (history (cs ++ [.append (.literal a)])).rev = .literal a :: (history cs).rev := by
    rw [history_append]; rfl
  obtain ⟨r, hr, hshape⟩ := gap_shape (b := .literal a :: (history cs).rev) rfl
    (history (cs ++ [.append (.literal a)])) hrev1 w.reverse
  rw [List.reverse_reverse, ← history_append, net_reverse] at hshape
  have hrev2 : (history (cs ++ [.append (.literal a)] ++ w.map WsCall.call ++
      [.append (.literal b)])).rev =
      .literal b :: (r ++ (indPart (net w) ++ .literal a :: (history cs).rev)) := by
    rw [history_append, ← hshape]; rfl
  have hi : (indPart (net w) : List (Item ι)).reverse.flatMap (plainActs L.langItem) =
      if net w ≠ 0 then [Act.indent (net w)] else [] := by
    unfold indPart
    by_cases hz : net w = 0 <;> simp [hz, plainActs]
  have hsoft : r.reverse.flatMap (plainActs L.langItem) = (r.map softAct).reverse := by
    rw [soft_acts _ _ (fun i hi => hr.soft i (by simpa using hi)), List.map_reverse]
  simp only [items, hrev1, hrev2, List.reverse_cons, List.reverse_append, List.flatMap_append,
    List.flatMap_cons, List.flatMap_nil, List.append_nil, hi, hsoft]
  have hsum := indSum_acts L.langItem (history cs).items
  rw [C07_net_indentation] at hsum
  have hit : (history cs).rev.reverse = (history cs).items := rfl
  rw [hit]
  generalize (history cs).items.flatMap (plainActs L.langItem) = p at hsum ⊢
  have hrc := render_concat cfg (p ++ [.text a.text])
    ((if net w ≠ 0 then [Act.indent (net w)] else []) ++ (r.map softAct).reverse) (by
      intro x hx
      simp only [List.mem_append, List.mem_reverse, List.mem_map] at hx
      rcases hx with hx | ⟨i, _, rfl⟩
      · split at hx
        · simp only [List.mem_singleton] at hx; subst hx; rfl
        · simp at hx
      · cases i <;> rfl) b.text hb
  have hpl := place_gap cfg p a.text b.text ha (net w) w.reverse r hr (net_reverse w).symm
  rw [List.reverse_reverse, hsum] at hpl
  rw [hpl] at hrc
  simpa [plainActs, List.append_assoc] using hrc

example : gapText cfg2 1 [.push, .indent, .space, .push, .line, .push, .space] =
    "\n\n     ".toList := by decide

example : toString plain cfg2 (history [.indent, .append (lit "a"), .push, .unindent, .push, .indent,
    .space, .push, .append (lit "b")]).items = some "  a\n  b".toList := by decide

/-- C09. After an `indent`/`unindent` call the next text starts on a new line
unless the indentation calls of the gap cancel out and no `push` or `line`
follows them. -/
theorem C09_new_line_partial (L : Lang ι) (cfg : Config) (cs : List (Call ι)) (hp : PlainCalls cs)
    (a b : ItemStr) (ha : a.text ≠ []) (hb : b.text ≠ []) (w : List WsCall) (hw : net w ≠ 0) :
    ∃ rest, toString L cfg (history (cs ++ [.append (.literal a)] ++ w.map WsCall.call ++
        [.append (.literal b)])).items =
      (toString L cfg (history (cs ++ [.append (.literal a)])).items).map (fun out =>
        out ++ cfg.newline ++ rest ++ b.text) := by
  rw [C06_gap L cfg cs hp a b ha hb w]
  have hb : gapBreaks w = 1 ∨ gapBreaks w = 2 := by
    unfold gapBreaks
    split
    · exact Or.inr rfl
    · simp [hw]
  unfold gapText
  rcases hb with hb | hb <;> rw [hb]
  · refine ⟨marginText cfg (indSum (cs.flatMap callItems) + net w).toNat ++
      List.replicate (gapSpaces w) ' ', ?_⟩
    simp [List.append_assoc]
  · refine ⟨cfg.newline ++ (marginText cfg (indSum (cs.flatMap callItems) + net w).toNat ++
      List.replicate (gapSpaces w) ' '), ?_⟩
    simp [List.append_assoc, List.replicate_succ]

example : toString plain cfg2 (history [.append (lit "a"), .space, .indent, .space,
    .append (lit "b")]).items = some "a\n   b".toList := by decide

/-- C09. Exactly when the next text starts on a new line: the indents and unindents of the
gap do not cancel out, or a `push` or `line` comes after the last of them. -/
theorem C09_exact_partial (L : Lang ι) (cfg : Config) (cs : List (Call ι)) (hp : PlainCalls cs)
    (a b : ItemStr) (ha : a.text ≠ []) (hb : b.text ≠ []) (w : List WsCall)
    (hn : '\n' ∈ cfg.newline) :
    ∃ sep, toString L cfg (history (cs ++ [.append (.literal a)] ++ w.map WsCall.call ++
        [.append (.literal b)])).items =
      (toString L cfg (history (cs ++ [.append (.literal a)])).items).map (fun out =>
        out ++ sep ++ b.text) ∧
      ('\n' ∈ sep ↔ w.count .indent ≠ w.count .unindent ∨
        ∃ u v, w = u ++ v ∧ (∀ c ∈ v, c ≠ .indent ∧ c ≠ .unindent) ∧
          (.push ∈ v ∨ .line ∈ v)) ∧
      (cfg.newline <+: sep ∨ sep = [] ∨ sep = [' ']) := by
  refine ⟨_, C06_gap L cfg cs hp a b ha hb w, ?_, ?_⟩
  · have hnet : net w ≠ 0 ↔ w.count .indent ≠ w.count .unindent := by unfold net; omega
    have hsince : (.push ∈ sinceInd w ∨ .line ∈ sinceInd w) ↔
        ∃ u v, w = u ++ v ∧ (∀ c ∈ v, c ≠ WsCall.indent ∧ c ≠ .unindent) ∧
          (.push ∈ v ∨ .line ∈ v) := by
      constructor
      · intro h
        refine ⟨(w.reverse.dropWhile (fun c => !c.isInd)).reverse, sinceInd w, ?_, ?_, h⟩
        · unfold sinceInd
          rw [← List.reverse_append, List.takeWhile_append_dropWhile, List.reverse_reverse]
        · intro c hc
          have := List.all_eq_true.1 (List.all_takeWhile (l := w.reverse) (p := fun c => !c.isInd)) c
            (by simpa [sinceInd] using hc)
          cases c <;> simp_all [WsCall.isInd]
      · rintro ⟨u, v, rfl, hv, h⟩
        have : ∀ x ∈ v, x ∈ sinceInd (u ++ v) := by
          intro x hx
          unfold sinceInd
          rw [List.reverse_append, List.takeWhile_append_of_pos]
          · simp [hx]
          · intro c hc
            have := hv c (List.mem_reverse.1 hc)
            cases c <;> simp_all [WsCall.isInd]
        exact h.imp (this _) (this _)
    rw [← hsince, ← hnet]
    have hbr : gapBreaks w ≠ 0 ↔ (net w ≠ 0 ∨ .push ∈ sinceInd w ∨ .line ∈ sinceInd w) := by
      unfold gapBreaks
      by_cases h1 : WsCall.line ∈ sinceInd w
      · simp [h1]
      · by_cases h2 : WsCall.push ∈ sinceInd w <;> by_cases h3 : net w = 0 <;> simp [h1, h2, h3]
    rw [← hbr]
    constructor
    · intro h h0
      unfold gapText at h
      simp [h0] at h
    · intro h
      obtain ⟨k, hk⟩ := Nat.exists_eq_succ_of_ne_zero h
      unfold gapText
      rw [hk, List.replicate_succ]
      simp [hn]
  · unfold gapText
    cases h : gapBreaks w with
    | zero =>
      right
      unfold gapSpaces
      by_cases hl : w.getLast? = some .space <;> simp [hl]
    | succ k =>
      left
      rw [List.replicate_succ]
      simp [List.append_assoc]

/-- An indent cancelled, but followed by a `push`. -/
example : toString plain cfg2 (history [.append (lit "a"), .indent, .unindent, .space, .push,
    .append (lit "b")]).items = some "a\nb".toList := by decide

/-- C09 is false as documented: `indent` directly undone by `unindent` does not
act like a push, and even swallows one made before. -/
theorem C09_cancelled_negative :
    toString plain cfg2 (history [.append (lit "a"), .indent, .unindent, .append (lit "b")]).items =
      some "ab".toList ∧
    toString plain cfg2 (history [.append (lit "a"), .push, .indent, .unindent,
      .append (lit "b")]).items = some "ab".toList := by decide

/-- C17. Between two non-empty literals with only whitespace calls in between,
the separator ends in at most one space after the line breaks and the
indentation; on one line it is at most one space. -/
theorem C17_single_space_partial (L : Lang ι) (cfg : Config) (cs : List (Call ι)) (hp : PlainCalls cs)
    (a b : ItemStr) (ha : a.text ≠ []) (hb : b.text ≠ []) (w : List WsCall)
    (hw : ∀ c ∈ w, c = .space) :
    toString L cfg (history (cs ++ [.append (.literal a)] ++ w.map WsCall.call ++
        [.append (.literal b)])).items =
      (toString L cfg (history (cs ++ [.append (.literal a)])).items).map (fun out =>
        out ++ (if w = [] then [] else [' ']) ++ b.text) := by
  rw [C06_gap L cfg cs hp a b ha hb w]
  have h0 : gapBreaks w = 0 := by
    unfold gapBreaks sinceInd net
    have hl : WsCall.line ∉ (w.reverse.takeWhile (fun c => !c.isInd)).reverse := by
      intro h
      have := hw _ (List.mem_reverse.1 (List.takeWhile_subset _ (List.mem_reverse.1 h)))
      simp at this
    have hp : WsCall.push ∉ (w.reverse.takeWhile (fun c => !c.isInd)).reverse := by
      intro h
      have := hw _ (List.mem_reverse.1 (List.takeWhile_subset _ (List.mem_reverse.1 h)))
      simp at this
    have h1 : w.count .indent = 0 := List.count_eq_zero.2 (fun h => by simpa using hw _ h)
    have h2 : w.count .unindent = 0 := List.count_eq_zero.2 (fun h => by simpa using hw _ h)
    simp [hl, hp, h1, h2]
  have h1 : gapText cfg (indSum (cs.flatMap callItems)) w = if w = [] then [] else [' '] := by
    unfold gapText gapSpaces
    rw [h0]
    rcases List.eq_nil_or_concat w with rfl | ⟨w', c, rfl⟩
    · simp
    · have := hw c (by simp)
      subst this
      simp
  rw [h1]

/-- C17. After any whitespace calls whatever the separator is the line breaks, then the
margin of the line, then at most one space; on one line it is the space alone. -/
theorem C17_at_most_one (L : Lang ι) (cfg : Config) (cs : List (Call ι)) (hp : PlainCalls cs)
    (a b : ItemStr) (ha : a.text ≠ []) (hb : b.text ≠ []) (w : List WsCall) :
    ∃ breaks sp, toString L cfg (history (cs ++ [.append (.literal a)] ++ w.map WsCall.call ++
        [.append (.literal b)])).items =
      (toString L cfg (history (cs ++ [.append (.literal a)])).items).map (fun out =>
        out ++ ((List.replicate breaks cfg.newline).flatten ++
          (if breaks = 0 then [] else
            marginText cfg (indSum (cs.flatMap callItems) + net w).toNat)) ++ sp ++ b.text) ∧
      sp = (if w.getLast? = some .space then [' '] else []) := by
  refine ⟨gapBreaks w, _, ?_, rfl⟩
  rw [C06_gap L cfg cs hp a b ha hb w]
  unfold gapText gapSpaces
  by_cases hl : w.getLast? = some .space <;> cases gapBreaks w <;> simp [hl]

example : toString plain cfg2 (history [.append (lit "a"), .space, .space, .indent, .space, .space,
    .append (lit "b")]).items = some "a\n   b".toList := by decide

/-- C17 is false in general: an invisible item between two spaces keeps them
apart. -/
theorem C17_register_negative :
    toString plain cfg2 (history [.append (lit "a"), .space, .register "i".toList, .space,
      .append (lit "b")]).items = some "a  b".toList ∧
    toString plain cfg2 (history [.append (lit "a"), .space, .append (lit ""), .space,
      .append (lit "b")]).items = some "a  b".toList := by decide

/-! ## Interpolated streams -/

/-- C10. Appending a stream built on its own gives the very stream that making
its calls in place gives, if the receiving stream is empty or ends in something
other than whitespace. -/
theorem C10_append_closed_partial (cs ds : List (Call ι))
    (h : ∀ i, (history cs).items.getLast? = some i → isWs i = false) :
    (history cs).appendTokens (history ds) = history (cs ++ ds) := by
  have hb : Closed (history cs).rev := by
    simp only [items, List.getLast?_reverse] at h
    generalize (history cs).rev = r at h
    cases r with
    | nil => trivial
    | cons i r => exact h i rfl
  rw [history_eq cs] at hb ⊢
  rw [history_eq ds, history_eq (cs ++ ds), List.flatMap_append, appendTokens,
    extend_items _ (linked_fromIter _) hb, fromIter, fromIter, extend_append]

/-- C10. The same if the appended stream starts with something other than
whitespace. -/
theorem C10_append_open_partial (cs ds : List (Call ι)) (i : Item ι)
    (h : (ds.flatMap callItems).head? = some i) (hi : isWs i = false) :
    (history cs).appendTokens (history ds) = history (cs ++ ds) := by
  rw [history_eq cs, history_eq ds, history_eq (cs ++ ds), List.flatMap_append, appendTokens]
  generalize cs.flatMap callItems = c
  generalize ds.flatMap callItems = d at h
  cases d with
  | nil => simp at h
  | cons x d =>
    simp only [List.head?_cons, Option.some.injEq] at h
    subst h
    have hs := fromIter_split [] d x hi
    simp only [List.nil_append] at hs
    have hs' : (fromIter (x :: d)).items.map erase = (x :: (fromIter d).items).map erase := by
      rw [hs]; rfl
    rw [extend_erase _ hs']
    show ((fromIter c).item x).extend _ = _
    obtain ⟨j, h1, _, h3⟩ := item_closed (fromIter c) x hi
    rw [extend_items _ ((linked_fromIter c).item x) (by rw [h3]; exact h1)]
    simp [fromIter, extend]

/-- The rendering of a stream depends on what precedes a text only through what
has been rendered and the net indentation. -/
theorem toString_continue (L : Lang ι) (cfg : Config) (A B ds : List (Call ι)) (hA : PlainCalls A)
    (hB : PlainCalls B) (hds : PlainCalls ds) (b : ItemStr) (hb : b.text ≠ [])
    (hnet : indSum (A.flatMap callItems) = indSum (B.flatMap callItems)) :
    toString L cfg (history (A ++ [.append (.literal b)])).items =
      toString L cfg (history (B ++ [.append (.literal b)])).items ↔
    toString L cfg (history (A ++ [.append (.literal b)] ++ ds)).items =
      toString L cfg (history (B ++ [.append (.literal b)] ++ ds)).items := by
  have pb := plainCalls_lit (ι := ι) b
  have pa := plainCalls_append.2 ⟨hA, pb⟩
  have pbb := plainCalls_append.2 ⟨hB, pb⟩
  have acts_eq : ∀ C : List (Call ι),
      (history (C ++ [.append (.literal b)] ++ ds)).items.flatMap (plainActs L.langItem) =
      ((history C).items.flatMap (plainActs L.langItem) ++ [.text b.text]) ++
        (history ds).items.flatMap (plainActs L.langItem) := by
    intro C
    have herase : ∀ l : List (Item ι), (l.map erase).flatMap (plainActs L.langItem) =
        l.flatMap (plainActs L.langItem) := by
      intro l
      induction l with
      | nil => rfl
      | cons i l ih => rw [List.map_cons, List.flatMap_cons, List.flatMap_cons, ih]; cases i <;> rfl
    rw [← herase, history_eq, List.flatMap_append, List.flatMap_append]
    have hs := fromIter_split (C.flatMap callItems) (ds.flatMap callItems) (.literal b) rfl
    simp only [List.flatMap_cons, List.flatMap_nil, callItems, List.append_nil, List.append_assoc,
      List.singleton_append] at hs ⊢
    rw [hs, List.flatMap_append, List.flatMap_cons, herase, herase, history_eq, history_eq]
    rfl
  rw [C13_layout _ _ _ (plain_history pa), C13_layout _ _ _ (plain_history pbb)]
  have h1 : ∀ C : List (Call ι), (history (C ++ [.append (.literal b)])).items.flatMap
      (plainActs L.langItem) = (history C).items.flatMap (plainActs L.langItem) ++ [.text b.text] := by
    intro C
    have : (history (C ++ [.append (.literal b)])).items = (history C).items ++ [.literal b] := by
      rw [history_append]
      show (Item.literal b :: (history C).rev).reverse = _
      simp [items]
    rw [this]; simp [plainActs]
  rw [h1, h1, Option.some.injEq,
    C13_layout _ _ _ (plain_history (plainCalls_append.2 ⟨pa, hds⟩)),
    C13_layout _ _ _ (plain_history (plainCalls_append.2 ⟨pbb, hds⟩)), acts_eq, acts_eq,
    Option.some.injEq]
  have hv : visible (.text b.text) = true := by simp [visible, hb]
  have sA := indSum_acts L.langItem (history A).items
  have sB := indSum_acts L.langItem (history B).items
  rw [C07_net_indentation] at sA sB
  have hst : specSt ((history A).items.flatMap (plainActs L.langItem) ++ [.text b.text]) =
      specSt ((history B).items.flatMap (plainActs L.langItem) ++ [.text b.text]) := by
    simp only [specSt, isFirst_concat, gap_concat, hv, seps, List.map_append, List.sum_append, sA, sB,
      hnet]
    simp
  rw [render_append cfg (List.flatMap (plainActs L.langItem) (history A).items ++ [Act.text b.text]),
    render_append cfg (List.flatMap (plainActs L.langItem) (history B).items ++ [Act.text b.text]), hst]
  exact List.append_left_inj _ |>.symm

/-- An interpolated stream is made of the normalised calls. -/
theorem append_norm (cs ds : List (Call ι)) (a b : ItemStr) (wa wb : List WsCall) :
    ∃ r : List (Item ι), GapInv wb.reverse r ∧
    (history (cs ++ [.append (.literal a)] ++ wa.map WsCall.call)).appendTokens
      (history (wb.map WsCall.call ++ [.append (.literal b)] ++ ds)) =
      history (cs ++ [.append (.literal a)] ++ (wa ++ normCalls (net wb) r).map WsCall.call ++
        [.append (.literal b)] ++ ds) := by
  obtain ⟨r, hr, hshape⟩ := gap_shape (ι := ι) (b := []) trivial Tokens.new rfl wb.reverse
  rw [List.reverse_reverse, net_reverse, List.append_nil] at hshape
  have hh : (wb.map WsCall.call).foldl Call.run (Tokens.new : Tokens ι) =
      history (wb.map WsCall.call) := rfl
  rw [hh] at hshape
  refine ⟨r, hr, ?_⟩
  rw [appendTokens, history_eq (wb.map WsCall.call ++ _ ++ ds), List.flatMap_append,
    List.flatMap_append]
  have hs := fromIter_split ((wb.map WsCall.call).flatMap callItems) (ds.flatMap callItems)
    (.literal b : Item ι) rfl
  simp only [List.flatMap_cons, List.flatMap_nil, callItems, List.append_nil, List.append_assoc,
    List.singleton_append] at hs ⊢
  have hs' : (fromIter ((wb.map WsCall.call).flatMap callItems ++
      Item.literal b :: ds.flatMap callItems)).items.map erase =
      ((r ++ indPart (net wb)).reverse ++ ([Item.literal b] ++
        (fromIter (ds.flatMap callItems)).items)).map erase := by
    rw [hs, ← history_eq (wb.map WsCall.call), items, hshape]
    simp [erase]
  rw [extend_erase _ hs', extend_append, extend_append,
    ← run_normCalls (net wb) r hr.soft]
  have hcl : ((((normCalls (net wb) r).map WsCall.call).foldl Call.run
      (history (cs ++ ([.append (.literal a)] ++ wa.map WsCall.call)))).extend [.literal b]) =
      history (cs ++ ([.append (.literal a)] ++ ((wa ++ normCalls (net wb) r).map WsCall.call ++
        [.append (.literal b)]))) := by
    simp only [history, List.map_append, List.foldl_append]
    rfl
  simp only [List.singleton_append] at hcl
  rw [hcl, extend_items]
  · simp only [history_eq, fromIter, ← extend_append]
    congr 1
    simp [List.append_assoc]
  · rw [history_eq]; exact linked_fromIter _
  · have : ∀ X : List (Call ι), Closed (history (X ++ [.append (.literal b)])).rev := by
      intro X; rw [history_append]; rfl
    have := this (cs ++ .append (.literal a) :: (wa ++ normCalls (net wb) r).map WsCall.call)
    simpa [List.append_assoc] using this

/-- Interpolating and making the calls in place differ by the text between the streams only. -/
theorem append_gap (L : Lang ι) (cfg : Config) (cs ds : List (Call ι))
    (hcs : PlainCalls cs) (hds : PlainCalls ds) (a b : ItemStr) (ha : a.text ≠ [])
    (hb : b.text ≠ []) (wa wb : List WsCall) :
    toString L cfg ((history (cs ++ [.append (.literal a)] ++ wa.map WsCall.call)).appendTokens
      (history (wb.map WsCall.call ++ [.append (.literal b)] ++ ds))).items =
    toString L cfg (history (cs ++ [.append (.literal a)] ++ wa.map WsCall.call ++
      (wb.map WsCall.call ++ [.append (.literal b)] ++ ds))).items ↔
    gapText cfg (indSum (cs.flatMap callItems)) (wa ++ lead wb) =
      gapText cfg (indSum (cs.flatMap callItems)) (wa ++ wb) := by
  obtain ⟨r, hr, hstream⟩ := append_norm cs ds a b wa wb
  rw [hstream]
  have e : cs ++ [.append (.literal a)] ++ wa.map WsCall.call ++
      (wb.map WsCall.call ++ [.append (.literal b)] ++ ds) =
      cs ++ [.append (.literal a)] ++ (wa ++ wb).map WsCall.call ++ [.append (.literal b)] ++ ds := by
    simp [List.append_assoc]
  rw [e]
  have pw : ∀ w : List WsCall, PlainCalls (cs ++ [.append (.literal a)] ++ w.map WsCall.call) :=
    fun w => plainCalls_append.2 ⟨plainCalls_append.2 ⟨hcs, plainCalls_lit a⟩, plainCalls_ws w⟩
  rw [← toString_continue L cfg _ _ ds (pw _) (pw _) hds b hb]
  · obtain ⟨o, ho⟩ : ∃ o, toString L cfg (history (cs ++ [.append (.literal a)])).items = some o :=
      ⟨_, C13_layout _ _ _ (plain_history (plainCalls_append.2 ⟨hcs, plainCalls_lit a⟩))⟩
    rw [C06_gap L cfg cs hcs a b ha hb, C06_gap L cfg cs hcs a b ha hb,
      gapText_lead cfg _ wa wb r hr, ho]
    simp [List.append_assoc]
  · have hn : ∀ w : List WsCall, indSum ((w.map WsCall.call : List (Call ι)).flatMap callItems) = net w := by
      intro w
      induction w with
      | nil => rfl
      | cons c w ih =>
        rw [List.map_cons, List.flatMap_cons, indSum_append, ih, net_cons]
        cases c <;> simp [WsCall.call, callItems, indSum, indOf] <;> omega
    simp only [List.flatMap_append, indSum_append, hn, net_append, net_normCalls]

/-- C10. The text between the last text of a stream and the first text of a stream interpolated into
it: what the calls before the interpolation ask for, together with what is left of the calls leading
the interpolated stream. -/
theorem C10_gap (L : Lang ι) (cfg : Config) (cs : List (Call ι)) (hcs : PlainCalls cs)
    (a b : ItemStr) (ha : a.text ≠ []) (hb : b.text ≠ []) (wa wb : List WsCall) :
    toString L cfg ((history (cs ++ [.append (.literal a)] ++ wa.map WsCall.call)).appendTokens
      (history (wb.map WsCall.call ++ [.append (.literal b)]))).items =
    (toString L cfg (history (cs ++ [.append (.literal a)])).items).map (fun out =>
      out ++ gapText cfg (indSum (cs.flatMap callItems)) (wa ++ lead wb) ++ b.text) := by
  obtain ⟨r, hr, hstream⟩ := append_norm cs [] a b wa wb
  rw [List.append_nil, List.append_nil] at hstream
  rw [hstream, C06_gap L cfg cs hcs a b ha hb, gapText_lead cfg _ wa wb r hr]

/-- C10. Interpolating a stream renders like making its calls in place exactly if what is left of the
calls leading it asks, together with the calls before, for the line breaks and spaces that all the
calls ask for. -/
theorem C10_exact_partial (L : Lang ι) (cfg : Config) (hn : '\n' ∈ cfg.newline) (cs ds : List (Call ι))
    (hcs : PlainCalls cs) (hds : PlainCalls ds) (a b : ItemStr) (ha : a.text ≠ [])
    (hb : b.text ≠ []) (wa wb : List WsCall) :
    toString L cfg ((history (cs ++ [.append (.literal a)] ++ wa.map WsCall.call)).appendTokens
      (history (wb.map WsCall.call ++ [.append (.literal b)] ++ ds))).items =
    toString L cfg (history (cs ++ [.append (.literal a)] ++ wa.map WsCall.call ++
      (wb.map WsCall.call ++ [.append (.literal b)] ++ ds))).items ↔
    gapBreaks (wa ++ lead wb) = gapBreaks (wa ++ wb) ∧
      gapSpaces (wa ++ lead wb) = gapSpaces (wa ++ wb) := by
  rw [append_gap L cfg cs ds hcs hds a b ha hb]
  have hnet : net (wa ++ lead wb) = net (wa ++ wb) := by rw [net_append, net_append, net_lead]
  refine ⟨gapText_inj cfg hn _ _ _ hnet, fun ⟨h1, h2⟩ => ?_⟩
  unfold gapText
  rw [h1, h2, hnet]

/-- C10. Interpolating a stream renders like making its calls in place, when both
streams have text and only whitespace calls lie between the last text of the one
and the first text of the other, unless the calls leading the interpolated
stream change the indentation and cancel out. -/
theorem C10_interpolate_partial (L : Lang ι) (cfg : Config) (cs ds : List (Call ι))
    (hcs : PlainCalls cs) (hds : PlainCalls ds) (a b : ItemStr) (ha : a.text ≠ [])
    (hb : b.text ≠ []) (wa wb : List WsCall)
    (hwb : net wb ≠ 0 ∨ ∀ c ∈ wb, c ≠ .indent ∧ c ≠ .unindent) :
    toString L cfg ((history (cs ++ [.append (.literal a)] ++ wa.map WsCall.call)).appendTokens
      (history (wb.map WsCall.call ++ [.append (.literal b)] ++ ds))).items =
    toString L cfg (history (cs ++ [.append (.literal a)] ++ wa.map WsCall.call ++
      (wb.map WsCall.call ++ [.append (.literal b)] ++ ds))).items := by
  rw [append_gap L cfg cs ds hcs hds a b ha hb, lead_of wb hwb]

/-- Calls cancelling out in the interpolated stream do no harm where there is nothing to undo. -/
example : toString plain cfg2 ((history [.append (lit "a")]).appendTokens
      (history [.indent, .unindent, .push, .append (lit "b")])).items =
    toString plain cfg2 (history [.append (lit "a"), .indent, .unindent, .push, .append (lit "b")]).items :=
  (C10_exact_partial plain cfg2 (by decide) [] [] (by simp [PlainCalls]) (by simp [PlainCalls])
    (.static "a".toList) (.static "b".toList) (by decide) (by decide) []
    [.indent, .unindent, .push]).2 (by decide)

example : toString plain cfg2 ((history [.append (lit "a"), .push, .space]).appendTokens
    (history [.space, .indent, .line, .append (lit "b"), .push, .append (lit "c")])).items =
    some "a\n\n  b\n  c".toList := by decide

/-- C10 is false in general: calls of the interpolated stream that cancel out
undo whitespace before them only when made in place. -/
theorem C10_cancelled_negative :
    toString plain cfg2 ((history [.append (lit "a"), .push]).appendTokens
      (history [.indent, .unindent, .append (lit "b")])).items = some "a\nb".toList ∧
    toString plain cfg2 (history [.append (lit "a"), .push, .indent, .unindent,
      .append (lit "b")]).items = some "ab".toList := by decide

/-- C10 is also false for whitespace before the first text: a space is kept or
dropped depending on how the calls were grouped. -/
theorem C10_leading_negative :
    toString plain cfg2 ((history [.space]).appendTokens
      (history [.push, .line, .append (lit "b")])).items ≠
    toString plain cfg2 (history [.space, .push, .line, .append (lit "b")]).items := by decide

end Genco.Props
