import Verif.Proofs.DocTold

/-!
# Code in holes, wherever it is
-/

set_option autoImplicit false

namespace Genco.Proofs.DocFile

open Genco Macro Spec Spec.Text Spec.MacroFile Spec.Doc

/-! ## Tokens without places -/

mutual
/-- A token without its place. -/
def bare : TT → TT
  | .ident _ n => .ident ⟨⟨0, 0⟩, ⟨0, 0⟩⟩ n
  | .punct _ c j => .punct ⟨⟨0, 0⟩, ⟨0, 0⟩⟩ c j
  | .str _ v t => .str ⟨⟨0, 0⟩, ⟨0, 0⟩⟩ v t
  | .char _ v t => .char ⟨⟨0, 0⟩, ⟨0, 0⟩⟩ v t
  | .lit _ t => .lit ⟨⟨0, 0⟩, ⟨0, 0⟩⟩ t
  | .group _ d ts => .group ⟨⟨0, 0⟩, ⟨0, 0⟩⟩ d (bareAll ts)
/-- Tokens without their places. -/
def bareAll : List TT → List TT
  | [] => []
  | t :: r => bare t :: bareAll r
end

theorem bareAll_map (ts : List TT) : bareAll ts = ts.map bare := by
  induction ts with
  | nil => rfl
  | cons t ts ih => rw [bareAll, ih]; rfl

/-- A token of the lexer without its place. -/
def bareRaw : Raw → Raw
  | .leaf t => .leaf (bare t)
  | .opening _ d => .opening ⟨0, 0, 0⟩ d
  | .closing _ d => .closing ⟨0, 0, 0⟩ d

/-- What has been begun, without its place. -/
def barePend : Pending → Pending
  | .none => .none
  | .word _ t => .word ⟨0, 0, 0⟩ t
  | .quote _ ch esc v t => .quote ⟨0, 0, 0⟩ ch esc v t
  | .comment n => .comment n

def bareStep (x : List Raw × Pending) : List Raw × Pending := (x.1.map bareRaw, barePend x.2)

theorem bare_word (C D : Compiler) (p q p' q' : Place) (t : Str) :
    (wordToken C p q t).map bareRaw = (wordToken D p' q' t).map bareRaw := by
  unfold wordToken
  cases t.reverse with
  | nil => rfl
  | cons c r =>
    simp only
    split
    · split <;> simp [bareRaw, bare]
    · simp [bareRaw, bare]

theorem bare_fresh (C D : Compiler) (p q : Place) (c : Char) (r : Str) :
    (lexFresh C p c r).map bareStep = (lexFresh D q c r).map bareStep := by
  unfold lexFresh
  split
  · rfl
  · split
    · rfl
    · split
      · rfl
      · split
        · rfl
        · split
          · split <;> rfl
          · cases opens c with
            | some d => rfl
            | none =>
              cases closes c with
              | some d => rfl
              | none => simp only; split <;> rfl

theorem bare_step (C D : Compiler) (p q : Place) (c : Char) (r : Str) (a b : Pending) (h : barePend a = barePend b) :
    (lexStep C p c r a).map bareStep = (lexStep D q c r b).map bareStep := by
  cases a with
  | none =>
    cases b with
    | none => exact bare_fresh C D p q c r
    | _ => cases h
  | word p1 t1 =>
    cases b with
    | word p2 t2 =>
      cases h
      rw [lexStep, lexStep]
      split
      · rfl
      · split
        · rfl
        · have h1 := bare_word C D p1 p p2 q t1
          have h2 := bare_fresh C D p q c r
          cases hw : wordToken C p1 p t1 <;> cases hw' : wordToken D p2 q t1 <;> rw [hw, hw'] at h1 <;> try cases h1
          · rfl
          · cases ho : lexFresh C p c r <;> cases ho' : lexFresh D q c r <;> rw [ho, ho'] at h2 <;> try cases h2
            · rfl
            · simp only [Option.map_some, Option.some.injEq, bareStep, Prod.mk.injEq] at h1 h2
              simp [bareStep, h1, h2]
    | _ => cases h
  | quote p1 ch1 e1 v1 t1 =>
    cases b with
    | quote p2 ch2 e2 v2 t2 =>
      cases h
      cases e1 with
      | true =>
        simp only [lexStep]
        cases unescape c <;> rfl
      | false =>
        cases ch1 with
        | false =>
          simp only [lexStep]
          split
          · rfl
          · split
            · split <;> rfl
            · split <;> rfl
        | true =>
          simp only [lexStep]
          split
          · rfl
          · split
            · split
              · rfl
              · split <;> rfl
            · split <;> rfl
    | _ => cases h
  | comment n =>
    cases b with
    | comment m =>
      cases h
      rfl
    | _ => cases h

theorem bare_from (C D : Compiler) (s : Str) : ∀ (p q : Place) (a b : Pending), barePend a = barePend b →
    (lexFrom C p a s).map (List.map bareRaw) = (lexFrom D q b s).map (List.map bareRaw) := by
  induction s with
  | nil =>
    intro p q a b h
    cases a <;> cases b <;> cases h <;> try rfl
    rename_i p1 t1 p2
    rw [lexFrom, lexFrom]
    have := bare_word C D p1 p p2 q t1
    cases hw : wordToken C p1 p t1 <;> cases hw' : wordToken D p2 q t1 <;> rw [hw, hw'] at this <;> try cases this
    simpa using this
  | cons c s ih =>
    intro p q a b h
    rw [lexFrom, lexFrom]
    have h1 := bare_step C D p q c s a b h
    cases ha : lexStep C p c s a <;> cases hb : lexStep D q c s b <;> rw [ha, hb] at h1 <;> try cases h1
    · rfl
    · rename_i x y
      simp only [Option.map_some, Option.some.injEq, bareStep, Prod.mk.injEq] at h1
      have h2 := ih (p.next c) (q.next c) x.2 y.2 h1.2
      simp only [bind, Option.bind]
      cases hx : lexFrom C (p.next c) x.2 s <;> cases hy : lexFrom D (q.next c) y.2 s <;> rw [hx, hy] at h2 <;> try cases h2
      simp only [Option.map_some, Option.some.injEq] at h2
      simp [h1.1, h2]

def bareFrame (x : Place × Delimiter × List TT) : Delimiter × List TT := (x.2.1, bareAll x.2.2)

theorem bareAll_reverse (ts : List TT) : bareAll ts.reverse = (bareAll ts).reverse := by
  simp [bareAll_map]

theorem bare_trees (C D : Compiler) (rs : List Raw) : ∀ (rs' : List Raw) (st st' : List (Place × Delimiter × List TT)) (acc acc' : List TT),
    rs.map bareRaw = rs'.map bareRaw → st.map bareFrame = st'.map bareFrame → bareAll acc = bareAll acc' →
    (trees C st acc rs).map bareAll = (trees D st' acc' rs').map bareAll := by
  induction rs with
  | nil =>
    intro rs' st st' acc acc' h hs ha
    cases rs' with
    | cons => cases h
    | nil =>
      have : st.isEmpty = st'.isEmpty := by cases st <;> cases st' <;> first | rfl | cases hs
      rw [trees, trees, this]
      split
      · simp [bareAll_reverse, ha]
      · rfl
  | cons x rs ih =>
    intro rs' st st' acc acc' h hs ha
    cases rs' with
    | nil => cases h
    | cons y rs' =>
      rw [List.map_cons, List.map_cons, List.cons.injEq] at h
      obtain ⟨h1, h2⟩ := h
      cases x with
      | leaf t =>
        cases y with
        | leaf t' =>
          rw [trees, trees]
          refine ih _ _ _ _ _ h2 hs ?_
          simp only [bareRaw, Raw.leaf.injEq] at h1
          rw [bareAll, bareAll, h1, ha]
        | _ => cases h1
      | opening p d =>
        cases y with
        | opening p' d' =>
          rw [trees, trees]
          simp only [bareRaw, Raw.opening.injEq, true_and] at h1
          subst h1
          exact ih _ _ _ _ _ h2 (by simp [bareFrame, ha, hs]) rfl
        | _ => cases h1
      | closing p d =>
        cases y with
        | closing p' d' =>
          simp only [bareRaw, Raw.closing.injEq, true_and] at h1
          subst h1
          cases st with
          | nil =>
            cases st' with
            | nil => rfl
            | cons => cases hs
          | cons f st =>
            cases st' with
            | nil => cases hs
            | cons f' st' =>
              obtain ⟨p1, d1, o1⟩ := f
              obtain ⟨p2, d2, o2⟩ := f'
              rw [List.map_cons, List.map_cons, List.cons.injEq] at hs
              obtain ⟨hf, hs⟩ := hs
              simp only [bareFrame, Prod.mk.injEq] at hf
              obtain ⟨rfl, hf⟩ := hf
              rw [trees, trees]
              split
              · refine ih _ _ _ _ _ h2 hs ?_
                rw [bareAll, bareAll, bare, bare, bareAll_reverse, bareAll_reverse, ha, hf]
              · rfl
        | _ => cases h1

/-- The tokens of a text are the same everywhere, but for their places. -/
theorem lex_anywhere (C D : Compiler) (p q : Place) (s : Str) :
    (lex C p s).map bareAll = (lex D q s).map bareAll := by
  unfold lex
  have h := bare_from C D s p q .none .none rfl
  cases hx : lexFrom C p .none s <;> cases hy : lexFrom D q .none s <;> rw [hx, hy] at h <;> try cases h
  · rfl
  · simp only [Option.map_some, Option.some.injEq] at h
    exact bare_trees C D _ _ _ _ _ _ h rfl rfl

/-! ## What does not depend on places -/

theorem words_bare (t : TT) : (bare t).words = t.words := by
  induction t using TT.rec (motive_2 := fun ts => wordsAll (bareAll ts) = wordsAll ts) with
  | group c d ts ih => rw [bare, TT.words, TT.words, ih]
  | nil => rfl
  | cons t ts ih1 ih2 => rw [bareAll, wordsAll, wordsAll, ih1, ih2]
  | _ => rfl

theorem wordsAll_bare (ts : List TT) : wordsAll (bareAll ts) = wordsAll ts := by
  induction ts with
  | nil => rfl
  | cons t ts ih => rw [bareAll, wordsAll, wordsAll, words_bare, ih]

theorem arrow_bare (ts : List TT) : (fatArrow (bareAll ts)).isSome = (fatArrow ts).isSome := by
  match ts with
  | [] => rfl
  | [t] => cases t <;> simp [bareAll, bare, fatArrow]
  | t :: u :: r =>
    cases t with
    | punct c x j =>
      cases u with
      | punct c' y j' =>
        by_cases hx : x = '='
        · by_cases hy : y = '>'
          · subst hx hy
            cases j <;> simp [bareAll, bare, fatArrow]
          · simp [bareAll, bare, fatArrow, hy]
        · simp [bareAll, bare, fatArrow, hx]
      | _ => simp [bareAll, bare, fatArrow]
    | _ => simp [bareAll, bare, fatArrow]

theorem word_bare (w : String) (ts : List TT) : startsWith w (bareAll ts) = startsWith w ts := by
  cases ts with
  | nil => rfl
  | cons t ts => cases t <;> rfl

theorem brace_bare (ts : List TT) : startsBrace (bareAll ts) = startsBrace ts := by
  cases ts with
  | nil => rfl
  | cons t ts =>
    cases t with
    | group c d r => cases d <;> rfl
    | _ => rfl

theorem eq_bare (ts : List TT) : startsEq (bareAll ts) = startsEq ts := by
  cases ts with
  | nil => rfl
  | cons t ts => cases t <;> rfl

theorem runsOn_bare {stop : List TT → Bool} (h : ∀ ts, stop (bareAll ts) = stop ts) (ts : List TT) :
    runsOn stop (bareAll ts) = runsOn stop ts := by
  induction ts with
  | nil => rfl
  | cons t ts ih =>
    cases ts with
    | nil => rfl
    | cons u r =>
      have e1 : runsOn stop (bareAll (t :: u :: r)) = (!stop (bareAll (u :: r)) && runsOn stop (bareAll (u :: r))) := rfl
      rw [e1, ih, h]
      rfl

theorem upTo_runs {stop : List TT → Bool} {rest : List TT} (hr : rest = [] ∨ stop rest = true)
    (hs : ∀ t ts, stop (t :: ts ++ rest) = stop (t :: ts)) (ts : List TT) (h : runsOn stop ts = true) :
    upTo stop (ts ++ rest) = some (ts, rest) := by
  induction ts with
  | nil => cases h
  | cons t ts ih =>
    cases ts with
    | nil =>
      cases rest with
      | nil => rfl
      | cons u r =>
        rcases hr with hr | hr
        · cases hr
        · show upTo stop (t :: u :: r) = _
          rw [upTo]
          simp [hr]
    | cons u r =>
      have h : (!stop (u :: r) && runsOn stop (u :: r)) = true := h
      rw [Bool.and_eq_true, Bool.not_eq_true'] at h
      have := ih h.2
      show upTo stop (t :: (u :: r ++ rest)) = _
      have e : u :: r ++ rest = u :: (r ++ rest) := rfl
      rw [e, upTo]
      rw [← e, hs, h.1, this]
      simp

/-- Tokens with something behind that starts with no `>`. -/
theorem arrow_more {rest : List TT} (hr : ∀ c j r, rest ≠ .punct c '>' j :: r) (t : TT) (ts : List TT) :
    (fatArrow (t :: ts ++ rest)).isSome = (fatArrow (t :: ts)).isSome := by
  cases ts with
  | cons u r =>
    show (fatArrow (t :: u :: (r ++ rest))).isSome = _
    cases t with
    | punct c x j =>
      cases u with
      | punct c' y j' =>
        by_cases hx : x = '='
        · by_cases hy : y = '>'
          · subst hx hy
            cases j <;> simp [fatArrow]
          · simp [fatArrow, hy]
        · simp [fatArrow, hx]
      | _ => simp [fatArrow]
    | _ => simp [fatArrow]
  | nil =>
    show (fatArrow (t :: rest)).isSome = _
    cases rest with
    | nil => rfl
    | cons u r =>
      cases t with
      | punct c x j =>
        cases u with
        | punct c' y j' =>
          by_cases hy : y = '>'
          · subst hy
            exact absurd rfl (hr c' j' r)
          · simp [fatArrow, hy]
        | _ => simp [fatArrow]
      | _ => simp [fatArrow]

theorem arrow_head {rest : List TT} (h : (fatArrow rest).isSome = true) : ∃ c d j r, rest = .punct c '=' true :: .punct d '>' j :: r := by
  unfold fatArrow at h
  split at h
  · exact ⟨_, _, _, _, rfl⟩
  · cases h

theorem word_head {w : String} {rest : List TT} (h : startsWith w rest = true) : ∃ c r, rest = .ident c w.toList :: r := by
  unfold startsWith at h
  split at h
  · exact ⟨_, _, by rw [beq_iff_eq] at h; rw [h]⟩
  · cases h

theorem word_more (w : String) (t : TT) (ts rest : List TT) : startsWith w (t :: ts ++ rest) = startsWith w (t :: ts) := by
  cases t <;> rfl

theorem brace_more (t : TT) (ts rest : List TT) : startsBrace (t :: ts ++ rest) = startsBrace (t :: ts) := by
  cases t with
  | group c d r => cases d <;> rfl
  | _ => rfl

theorem eq_more (t : TT) (ts rest : List TT) : startsEq (t :: ts ++ rest) = startsEq (t :: ts) := by
  cases t <;> rfl

theorem ends_expr {rest : List TT} (h : endsExpr rest = true) : ∀ c j r, rest ≠ .punct c '>' j :: r := by
  rintro c j r rfl
  simp [endsExpr, fatArrow, startsBrace, startsWith] at h

theorem takes_expr {ts : List TT} (h : runsOn (fun ts => exprEnd ts || startsBrace ts) ts = true) :
    Takes syn.expr endsExpr ts := by
  intro rest hr
  refine upTo_runs (.inr ?_) (fun t ts => ?_) ts h
  · simp only [endsExpr, exprEnd, Bool.or_eq_true] at hr ⊢
    rcases hr with (hr | hr) | hr
    · exact .inl (.inl hr)
    · exact .inr hr
    · exact .inl (.inr hr)
  · simp only [exprEnd]
    rw [arrow_more (ends_expr hr), word_more, brace_more]

theorem takes_pat {ts : List TT} (h : runsOn patEnd ts = true) : Takes syn.pat endsPat ts := by
  intro rest hr
  refine upTo_runs (.inr ?_) (fun t ts => ?_) ts h
  · show ((fatArrow rest).isSome || startsWith "in" rest || startsEq rest) = true
    rw [show startsWith "in" rest = true from hr, Bool.or_true, Bool.true_or]
  · have : ∀ c j r, rest ≠ .punct c '>' j :: r := by
      obtain ⟨c, r, rfl⟩ := word_head hr
      intro _ _ _ e
      cases e
    show ((fatArrow (t :: ts ++ rest)).isSome || startsWith "in" (t :: ts ++ rest) || startsEq (t :: ts ++ rest)) = _
    rw [arrow_more this, word_more, eq_more]

theorem takes_eq {ts : List TT} (h : runsOn patEnd ts = true) : Takes syn.pat startsEq ts := by
  intro rest hr
  refine upTo_runs (.inr ?_) (fun t ts => ?_) ts h
  · show ((fatArrow rest).isSome || startsWith "in" rest || startsEq rest) = true
    rw [hr, Bool.or_true]
  · have : ∀ c j r, rest ≠ .punct c '>' j :: r := by
      rintro c j r rfl
      cases hr
    show ((fatArrow (t :: ts ++ rest)).isSome || startsWith "in" (t :: ts ++ rest) || startsEq (t :: ts ++ rest)) = _
    rw [arrow_more this, word_more, eq_more]

theorem all_expr {ts : List TT} (h : runsOn (fun ts => exprEnd ts || startsBrace ts) ts = true) : syn.expr ts = some (ts, []) := by
  have := upTo_runs (rest := []) (.inl rfl) (fun t ts => by rw [List.append_nil]) ts h
  rwa [List.append_nil] at this

theorem takes_arm {ts : List TT} (h : runsOn armEnd ts = true) (g : Bool) : Takes syn.patMulti (endsArm g) ts := by
  intro rest hr
  refine upTo_runs (.inr ?_) (fun t ts => ?_) ts h
  · show ((fatArrow rest).isSome || startsWith "if" rest) = true
    cases g with
    | false => rw [show (fatArrow rest).isSome = true from hr, Bool.true_or]
    | true => rw [show startsWith "if" rest = true from hr, Bool.or_true]
  · have : ∀ c j r, rest ≠ .punct c '>' j :: r := by
      cases g with
      | false =>
        obtain ⟨c, d, j, r, rfl⟩ := arrow_head hr
        intro _ _ _ e
        cases e
      | true =>
        obtain ⟨c, r, rfl⟩ := word_head (w := "if") hr
        intro _ _ _ e
        cases e
    show ((fatArrow (t :: ts ++ rest)).isSome || startsWith "if" (t :: ts ++ rest)) = _
    rw [arrow_more this, word_more]

theorem takes_guard {ts : List TT} (h : runsOn exprEnd ts = true) : Takes syn.fullExpr (endsArm false) ts := by
  intro rest hr
  have hr : (fatArrow rest).isSome = true := hr
  refine upTo_runs (.inr ?_) (fun t ts => ?_) ts h
  · show ((fatArrow rest).isSome || startsWith "join" rest) = true
    rw [hr, Bool.true_or]
  · have : ∀ c j r, rest ≠ .punct c '>' j :: r := by
      obtain ⟨c, d, j, r, rfl⟩ := arrow_head hr
      intro _ _ _ e
      cases e
    show ((fatArrow (t :: ts ++ rest)).isSome || startsWith "join" (t :: ts ++ rest)) = _
    rw [arrow_more this, word_more]
    rfl

theorem full_expr {ts : List TT} (h : runsOn exprEnd ts = true) : syn.fullExpr ts = some (ts, []) := by
  have := upTo_runs (rest := []) (.inl rfl) (fun t ts => by rw [List.append_nil]) ts h
  rwa [List.append_nil] at this

/-! ## Simple code -/

theorem code_always (C : Compiler) {f : List TT → Bool} {e : Str} (hf : ∀ ts, f (bareAll ts) = f ts) (h : codeLike f e = true) :
    Reads C e ∧ Always C e (fun ts => f ts = true ∧ wordsAll ts = code e) := by
  simp only [codeLike, Bool.and_eq_true] at h
  obtain ⟨h1, h2⟩ := h
  obtain ⟨ts, h3, h4⟩ : ∃ ts, lex .nightly ⟨1, 0, 0⟩ e = some ts ∧ f ts = true := by
    cases hl : lex .nightly ⟨1, 0, 0⟩ e with
    | none => rw [hl] at h2; cases h2
    | some ts => rw [hl] at h2; exact ⟨ts, rfl, h2⟩
  have key : ∀ p us, lex C p e = some us → bareAll us = bareAll ts := by
    intro p us hu
    have := lex_anywhere C .nightly p ⟨1, 0, 0⟩ e
    rw [hu, h3] at this
    exact Option.some.inj this
  refine ⟨⟨fun p => ?_, h1⟩, fun p us hu => ⟨?_, ?_⟩⟩
  · have := lex_anywhere C .nightly p ⟨1, 0, 0⟩ e
    rw [h3] at this
    cases hl : lex C p e with
    | none => rw [hl] at this; cases this
    | some us => exact ⟨us, rfl⟩
  · rw [← hf, key p us hu, hf]
    exact h4
  · rw [← wordsAll_bare, key p us hu, wordsAll_bare, code, codes]
    show wordsAll ts = ((lex .nightly ⟨1, 0, 0⟩ e).map wordsAll).getD []
    rw [h3]
    rfl

theorem begins_bare {g : TT → Bool} (hg : ∀ t, g (bare t) = g t) (ts : List TT) : begins g (bareAll ts) = begins g ts := by
  cases ts with
  | nil => rfl
  | cons t ts => exact hg t

theorem simple_expr (C : Compiler) {e : Str} (h : simpleExpr e = true) :
    IsExpr C syn e ∧ Always C e (fun ts => wordsAll ts = code e) := by
  have := code_always C (fun ts => runsOn_bare (fun ts => by simp only [exprEnd]; rw [arrow_bare, word_bare, brace_bare]) ts) h
  exact ⟨⟨this.1, fun p ts ht => takes_expr (this.2 p ts ht).1⟩, fun p ts ht => (this.2 p ts ht).2⟩

theorem simple_pat (C : Compiler) {e : Str} (h : simplePat e = true) :
    Reads C e ∧ Always C e (Takes syn.pat endsPat) ∧ Always C e (fun ts => wordsAll ts = code e) := by
  have := code_always C (fun ts => runsOn_bare (fun ts => by simp only [patEnd]; rw [arrow_bare, word_bare, eq_bare]) ts) h
  exact ⟨this.1, fun p ts ht => takes_pat (this.2 p ts ht).1, fun p ts ht => (this.2 p ts ht).2⟩

theorem simple_let (C : Compiler) {p e : Str} (hp : simplePat p = true) (he : simpleExpr e = true) :
    Always C p (Takes syn.pat startsEq) ∧ Always C e (fun te => syn.expr te = some (te, [])) := by
  have h1 := code_always C (fun ts => runsOn_bare (fun ts => by simp only [patEnd]; rw [arrow_bare, word_bare, eq_bare]) ts) hp
  have h2 := code_always C (fun ts => runsOn_bare (fun ts => by simp only [exprEnd]; rw [arrow_bare, word_bare, brace_bare]) ts) he
  exact ⟨fun p ts ht => takes_eq (h1.2 p ts ht).1, fun p ts ht => all_expr (h2.2 p ts ht).1⟩

theorem simple_arm (C : Compiler) {e : Str} (h : simpleArm e = true) :
    Reads C e ∧ (∀ g, Always C e (fun tp => Takes syn.patMulti (endsArm g) tp ∧ tp ≠ [] ∧ begins isComma tp = false)) ∧
      Always C e (fun ts => wordsAll ts = code e) := by
  have := code_always C (fun ts => by
    rw [runsOn_bare (fun ts => by simp only [armEnd]; rw [arrow_bare, word_bare]) ts,
      begins_bare (fun t => by cases t <;> rfl)]) h
  refine ⟨this.1, fun g p ts ht => ?_, fun p ts ht => (this.2 p ts ht).2⟩
  have h1 := (this.2 p ts ht).1
  rw [Bool.and_eq_true, Bool.not_eq_true'] at h1
  refine ⟨takes_arm h1.1 g, ?_, h1.2⟩
  rintro rfl
  cases h1.1

theorem simple_guard (C : Compiler) {e : Str} (h : simpleGuard e = true) :
    Reads C e ∧ Always C e (Takes syn.fullExpr (endsArm false)) ∧ Always C e (fun ts => wordsAll ts = code e) := by
  have := code_always C (fun ts => runsOn_bare (fun ts => by simp only [exprEnd]; rw [arrow_bare, word_bare]) ts) h
  exact ⟨this.1, fun p ts ht => takes_guard (this.2 p ts ht).1, fun p ts ht => (this.2 p ts ht).2⟩

theorem inLine_bare (ts : List TT) : inLine (bareAll ts) = inLine ts := by
  simp only [inLine]
  rw [begins_bare (fun t => by cases t <;> rfl), begins_bare (fun t => by cases t <;> rfl), bareAll_map, List.all_map]
  congr 3
  funext t
  cases t <;> rfl

theorem simple_line (C : Compiler) {e : Str} (h : simpleLine e = true) : Always C e (fun ts => inLine ts = true) := by
  intro p us hu
  have := lex_anywhere C .nightly p ⟨1, 0, 0⟩ e
  unfold simpleLine at h
  rw [hu] at this
  cases hl : lex .nightly ⟨1, 0, 0⟩ e with
  | none => rw [hl] at h; cases h
  | some ts =>
    rw [hl] at h this
    rw [← inLine_bare, Option.some.inj this, inLine_bare]
    exact h

theorem simple_value (C : Compiler) {e : Str} (h : simpleValue e = true) :
    Reads C e ∧ Always C e (fun ts => begins isLead ts = false ∧ (∀ c s text, ts ≠ [.str c s text]) ∧ syn.fullExpr ts = some (ts, [])) ∧
      Always C e (fun ts => wordsAll ts = code e) := by
  have := code_always C (fun ts => by
    rw [runsOn_bare (fun ts => by simp only [exprEnd]; rw [arrow_bare, word_bare]) ts,
      begins_bare (fun t => by cases t <;> rfl), begins_bare (fun t => by cases t <;> rfl), bareAll_map, List.length_map]) h
  refine ⟨this.1, fun p ts ht => ?_, fun p ts ht => (this.2 p ts ht).2⟩
  have h1 := (this.2 p ts ht).1
  rw [Bool.and_eq_true, Bool.and_eq_true, Bool.not_eq_true', Bool.not_eq_true'] at h1
  refine ⟨h1.1.2, ?_, full_expr h1.1.1⟩
  rintro c s text rfl
  cases h1.2

theorem simple_scope (C : Compiler) {e : Str} (h : codeLike (fun _ => true) e = true) :
    Reads C e ∧ Always C e (fun ts => wordsAll ts = code e) := by
  have := code_always C (fun ts => rfl) h
  exact ⟨this.1, fun p ts ht => (this.2 p ts ht).2⟩

end Genco.Proofs.DocFile
