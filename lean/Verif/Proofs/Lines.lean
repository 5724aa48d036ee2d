import Verif.Proofs.Quoting
import Verif.Proofs.Writers
import Mathlib.Data.List.Chain

/-!
# Lemmas about rendered lines
-/

set_option autoImplicit false

namespace Genco

open Spec

variable {ι σ : Type}

/-! ## The vector writer, line by line -/

theorem replay_vec_strs (cfg : Config) (l : List Str) (v : VecState) :
    replay vecWriter cfg (l.map .str) v = .ok { v with lineBuffer := v.lineBuffer ++ l.flatten } := by
  induction l generalizing v with
  | nil => simp [replay]
  | cons s l ih =>
    have : replay vecWriter cfg ((s :: l).map .str) v =
      replay vecWriter cfg (l.map .str) { v with lineBuffer := v.lineBuffer ++ s } := rfl
    rw [this, ih]
    simp

/-- The whitespace written before a text, after its line breaks. -/
def flushPad (cfg : Config) (st : LSt) : Str :=
  (if st.line = .none then [] else marginText cfg st.indent.toNat) ++ List.replicate st.spaces ' '

/-- Number of line breaks written before a text. -/
def flushLines (st : LSt) : Nat := st.line.intoIndent.getD 0

theorem flushEv_shape (cfg : Config) (st : LSt) :
    ∃ l : List Str, flushEv cfg st = List.replicate (flushLines st) .line ++ l.map .str ∧
      l.flatten = flushPad cfg st := by
  have hmax : (max st.indent 0).toNat = st.indent.toNat := by omega
  obtain ⟨l, sp, ind⟩ := st
  have e : ∀ n, flushEv cfg ⟨.none, sp, n⟩ = (chunks SPACES sp sp).map .str := fun n => rfl
  by_cases hl : l = .none
  · subst hl
    exact ⟨chunks SPACES sp sp, rfl, by simp [chunks_SPACES, flushPad]⟩
  · have : flushEv cfg ⟨l, sp, ind⟩ = List.replicate (flushLines ⟨l, sp, ind⟩) .line ++
        (match cfg.indentation with
        | .space n => chunks SPACES (sp + ind.toNat * n) (sp + ind.toNat * n)
        | .tab => chunks TABS ind.toNat ind.toNat ++ chunks SPACES sp sp).map .str := by
      simp only [flushEv, hmax, flushLines]
      cases l <;> first | (exact absurd rfl hl) | (cases cfg.indentation <;> simp [Whitespace.intoIndent])
    refine ⟨_, this, ?_⟩
    simp only [flushPad, hl, if_false, marginText]
    cases cfg.indentation with
    | space n => simp [chunks_SPACES, Nat.add_comm]
    | tab => simp [chunks_TABS, chunks_SPACES]

theorem replay_vec_flush (cfg : Config) (st : LSt) (v : VecState) (s : Str) :
    replay vecWriter cfg (flushEv cfg st ++ [.str s]) v = .ok
      (match st.line with
      | .initial | .none => { v with lineBuffer := v.lineBuffer ++ (flushPad cfg st ++ s) }
      | .push => { lineBuffer := flushPad cfg st ++ s, target := v.target ++ [v.lineBuffer] }
      | .line => { lineBuffer := flushPad cfg st ++ s, target := v.target ++ [v.lineBuffer, []] }) := by
  obtain ⟨l, h1, h2⟩ := flushEv_shape cfg st
  have hs : ∀ v : VecState, replay vecWriter cfg [.str s] v =
    .ok { v with lineBuffer := v.lineBuffer ++ s } := fun v => rfl
  rw [h1, replay_append, replay_append]
  cases hl : st.line <;> simp only [flushLines, hl, Whitespace.intoIndent, Option.getD]
  · have : replay vecWriter cfg (List.replicate 0 Ev.line) v = .ok v := rfl
    rw [this]
    simp [Except.bind, replay_vec_strs, hs, h2]
  · have : replay vecWriter cfg (List.replicate 0 Ev.line) v = .ok v := rfl
    rw [this]
    simp [Except.bind, replay_vec_strs, hs, h2]
  · have : replay vecWriter cfg (List.replicate 1 Ev.line) v =
      .ok { lineBuffer := [], target := v.target ++ [v.lineBuffer] } := rfl
    rw [this]
    simp [Except.bind, replay_vec_strs, hs, h2]
  · have : replay vecWriter cfg (List.replicate 2 Ev.line) v =
      .ok { lineBuffer := [], target := v.target ++ [v.lineBuffer] ++ [[]] } := rfl
    rw [this]
    simp [Except.bind, replay_vec_strs, hs, h2]

/-- The state of the vector writer after one action. -/
def vecAct (cfg : Config) (st : LSt) (v : VecState) : Act → VecState
  | .text s =>
    if s = [] then v else
    match st.line with
    | .initial | .none => { v with lineBuffer := v.lineBuffer ++ (flushPad cfg st ++ s) }
    | .push => { lineBuffer := flushPad cfg st ++ s, target := v.target ++ [v.lineBuffer] }
    | .line => { lineBuffer := flushPad cfg st ++ s, target := v.target ++ [v.lineBuffer, []] }
  | _ => v

/-- The state of the vector writer after running actions. -/
def vecActs (cfg : Config) : LSt → VecState → List Act → VecState
  | _, v, [] => v
  | st, v, a :: r => vecActs cfg (actSt st a) (vecAct cfg st v a) r

theorem replay_vec_acts (cfg : Config) (st : LSt) (v : VecState) (acts : List Act) :
    replay vecWriter cfg (actsEv cfg st acts) v = .ok (vecActs cfg st v acts) := by
  induction acts generalizing st v with
  | nil => rfl
  | cons a r ih =>
    simp only [actsEv, replay_append, vecActs]
    have : replay vecWriter cfg (actEv cfg st a) v = .ok (vecAct cfg st v a) := by
      cases a with
      | text s =>
        simp only [actEv, vecAct]
        by_cases hs : s = []
        · simp [hs, replay]
        · rw [if_pos hs, if_neg hs, replay_vec_flush]
      | _ => rfl
    rw [this]
    exact ih _ _

theorem toVec_eq (L : Lang ι) (cfg : Config) (items : List (Item ι)) :
    toVec L cfg items = (resolveItems L cfg items).2.map
      (fun _ => (vecActs cfg .new .new (resolveItems L cfg items).1).intoVec) := by
  simp only [toVec]
  rw [okOf_eq (g := VecState.intoVec), formatItems_out]
  have : (Fmt.new VecState.new).st = LSt.new := rfl
  rw [this]
  have h : (Fmt.new VecState.new).out = VecState.new := rfl
  rw [h, replay_vec_acts]
  cases (resolveItems L cfg items).2 <;> rfl

/-! ## Shape of the lines -/

/-- Invariant of the vector writer: nothing written yet, or the current line ends
with a text accepted by `P`, finished lines are empty or end with such a text,
the first line is not empty and no two neighbouring lines are empty. -/
structure LinesOk (P : Str → Prop) (st : LSt) (v : VecState) : Prop where
  start : st.line = .initial → v = VecState.new
  buf : st.line ≠ .initial → ∃ w t, v.lineBuffer = w ++ t ∧ t ≠ [] ∧ P t
  target : ∀ l ∈ v.target, l = [] ∨ ∃ w t, l = w ++ t ∧ t ≠ [] ∧ P t
  chain : v.intoVec.IsChain (fun a b => a ≠ [] ∨ b ≠ [])
  first : st.line ≠ .initial → ∀ l r, v.intoVec = l :: r → l ≠ []

theorem linesOk_new (P : Str → Prop) : LinesOk P .new .new where
  start _ := rfl
  buf h := absurd rfl h
  target l h := by simp [VecState.new] at h
  chain := by simp [VecState.new, VecState.intoVec]
  first h := absurd rfl h

theorem actSt_initial {st : LSt} {a : Act} (ha : visible a = false) :
    (actSt st a).line = .initial ↔ st.line = .initial := by
  obtain ⟨l, s, i⟩ := st
  cases a with
  | text t =>
    have : t = [] := by simpa [visible] using ha
    simp [actSt, this]
  | _ => cases l <;> simp [actSt]

theorem vecAct_ws {cfg : Config} {st : LSt} {v : VecState} {a : Act} (ha : visible a = false) :
    vecAct cfg st v a = v := by
  cases a with
  | text t =>
    have : t = [] := by simpa [visible] using ha
    simp [vecAct, this]
  | _ => rfl

theorem isChain_concat {α : Type} (R : α → α → Prop) (l : List α) (a b : α)
    (h : (l ++ [a]).IsChain R) (hab : R a b) : (l ++ [a, b]).IsChain R := by
  have : l ++ [a, b] = (l ++ [a]) ++ [b] := by simp
  rw [this, List.isChain_append]
  refine ⟨h, by simp, ?_⟩
  intro x hx y hy
  simp at hx hy
  subst hx hy
  exact hab

theorem isChain_last {α : Type} (R : α → α → Prop) (l : List α) (a b : α)
    (h : (l ++ [a]).IsChain R) (hab : ∀ x, R x a → R x b) : (l ++ [b]).IsChain R := by
  rw [List.isChain_append] at h ⊢
  refine ⟨h.1, by simp, ?_⟩
  intro x hx y hy
  simp at hy
  subst hy
  exact hab x (h.2.2 x hx a (by simp))

theorem linesOk_act {P : Str → Prop} {cfg : Config} {st : LSt} {v : VecState} {a : Act}
    (h : LinesOk P st v) (hP : ∀ s, a = .text s → s ≠ [] → P s) :
    LinesOk P (actSt st a) (vecAct cfg st v a) := by
  cases ha : visible a with
  | false =>
    rw [vecAct_ws ha]
    have hi := actSt_initial (st := st) ha
    exact ⟨fun h' => h.start (hi.1 h'), fun h' => h.buf (fun x => h' (hi.2 x)), h.target, h.chain,
      fun h' => h.first (fun x => h' (hi.2 x))⟩
  | true =>
    cases a with
    | text s =>
      have hs : s ≠ [] := by simpa [visible] using ha
      have hPs := hP s rfl hs
      simp only [actSt, vecAct, hs, ne_eq, not_false_eq_true, if_true, if_false, LSt.flushed]
      have ends : ∀ w : Str, ∃ w' t, w ++ s = w' ++ t ∧ t ≠ [] ∧ P t :=
        fun w => ⟨w, s, rfl, hs, hPs⟩
      have hne : ∀ w : Str, w ++ s ≠ [] := by intro w; simp [hs]
      cases hl : st.line with
      | initial =>
        have hv := h.start hl
        subst hv
        refine ⟨by simp, fun _ => ends _, by simp [VecState.new], ?_, ?_⟩
        · simp [VecState.new, VecState.intoVec]
        · intro _ l r hr
          simp [VecState.new, VecState.intoVec] at hr
          rw [← hr.1]
          exact hne _
      | none =>
        have hb := h.buf (by simp [hl])
        refine ⟨by simp, fun _ => ?_, h.target, ?_, ?_⟩
        · simp only [← List.append_assoc]; exact ends _
        · refine isChain_last _ _ v.lineBuffer _ h.chain (fun x _ => .inr ?_)
          simp [hs]
        · intro _ l r hr
          have hf := h.first (by simp [hl])
          simp only [VecState.intoVec] at hr hf
          cases ht : v.target with
          | nil => rw [ht] at hr; simp at hr; rw [← hr.1]; simp [hs]
          | cons x xs =>
            rw [ht] at hr hf
            simp only [List.cons_append, List.cons.injEq] at hr
            exact hf l (xs ++ [v.lineBuffer]) (by simp [← hr.1])
      | push =>
        have hb := h.buf (by simp [hl])
        refine ⟨by simp, fun _ => ends _, ?_, ?_, ?_⟩
        · intro l hm
          simp only [List.mem_append, List.mem_singleton] at hm
          rcases hm with hm | hm
          · exact h.target l hm
          · rw [hm]; exact .inr hb
        · have := isChain_concat _ v.target v.lineBuffer (flushPad cfg st ++ s) h.chain
            (.inr (hne _))
          simpa [VecState.intoVec] using this
        · intro _ l r hr
          have hf := h.first (by simp [hl])
          simp only [VecState.intoVec] at hr hf
          cases ht : v.target with
          | nil =>
            rw [ht] at hr hf
            simp at hr
            exact hf l [] (by simp [hr.1])
          | cons x xs =>
            rw [ht] at hr hf
            simp only [List.cons_append, List.cons.injEq] at hr
            exact hf l (xs ++ [v.lineBuffer]) (by simp [← hr.1])
      | line =>
        have hb := h.buf (by simp [hl])
        have hbne : v.lineBuffer ≠ [] := by
          obtain ⟨w, t, h1, h2, _⟩ := hb
          simp [h1, h2]
        refine ⟨by simp, fun _ => ends _, ?_, ?_, ?_⟩
        · intro l hm
          simp only [List.mem_append, List.mem_cons, List.not_mem_nil, or_false] at hm
          rcases hm with hm | hm | hm
          · exact h.target l hm
          · rw [hm]; exact .inr hb
          · exact .inl hm
        · have h1 := isChain_concat _ v.target v.lineBuffer [] h.chain (.inl hbne)
          have h2 := isChain_concat (fun a b => a ≠ [] ∨ b ≠ []) (v.target ++ [v.lineBuffer]) []
            (flushPad cfg st ++ s) (by simpa using h1) (.inr (hne _))
          simpa [VecState.intoVec] using h2
        · intro _ l r hr
          have hf := h.first (by simp [hl])
          simp only [VecState.intoVec] at hr hf
          cases ht : v.target with
          | nil =>
            rw [ht] at hr hf
            simp at hr
            exact hf l [] (by simp [hr.1])
          | cons x xs =>
            rw [ht] at hr hf
            simp only [List.cons_append, List.cons.injEq] at hr
            exact hf l (xs ++ [v.lineBuffer]) (by simp [← hr.1])
    | _ => simp [visible] at ha

theorem linesOk_acts {P : Str → Prop} {cfg : Config} {st : LSt} {v : VecState} (acts : List Act)
    (h : LinesOk P st v) (hP : ∀ s, .text s ∈ acts → s ≠ [] → P s) :
    LinesOk P (actsSt st acts) (vecActs cfg st v acts) := by
  induction acts generalizing st v with
  | nil => exact h
  | cons a r ih =>
    exact ih (linesOk_act h (fun s hs hn => hP s (by simp [hs]) hn))
      (fun s hs hn => hP s (List.mem_cons_of_mem _ hs) hn)

/-! ## What texts are written -/

theorem resolve_subset (L : Lang ι) (cfg : Config) (fuel : Nat) (e : Bool) (st : List Frame)
    (items r : List (Item ι)) (h : (resolve L cfg fuel e st items).2 = some r) :
    r ⊆ items := by
  induction fuel generalizing e st items r with
  | zero => simp [resolve] at h; simp [h]
  | succ fuel ih =>
    cases items with
    | nil => simp [resolve] at h; simp [← h]
    | cons i rest =>
      cases st with
      | nil => simp [resolve] at h; simp [h]
      | cons head stack' =>
        simp only [resolve] at h
        have step : ∀ e st, (resolve L cfg fuel e st rest).2 = some r →
            r ⊆ i :: rest := by
          intro e st h
          exact List.subset_cons_of_subset _ (ih _ _ _ _ h)
        cases i with
        | openQuote e =>
          simp only at h
          split at h
          · exact step _ _ h
          · split at h
            · split at h
              · simp at h
              · rename_i rest' hr
                have h1 := ih _ _ _ _ hr
                have h2 := ih _ _ _ _ h
                exact List.subset_cons_of_subset _ (List.Subset.trans h2 h1)
            · simp at h
        | closeQuote =>
          simp only at h
          split at h
          · simp only [Option.some.injEq] at h; simp [← h]
          · split at h
            · exact step _ _ h
            · simp at h
        | openEval =>
          simp only at h
          split at h
          · split at h
            · have := ih _ _ _ _ h
              intro x hx
              simp [this hx]
            · exact step _ _ h
          · simp at h
        | closeEval =>
          simp only at h
          split at h
          · exact step _ _ h
          · simp at h
        | indentation n =>
          simp only at h
          split at h <;> exact step _ _ h
        | _ => exact step _ _ h

/-! ## Removing whitespace -/

theorem filter_replicate_ws (p : Char → Bool) (c : Char) (h : p c = false) (n : Nat) :
    (List.replicate n c).filter p = [] := by
  simp [h]

theorem filter_render (cfg : Config) (hn : cfg.newline.filter inked = []) (p : Piece) :
    (p.render cfg).filter inked = p.text.filter inked := by
  have h1 : (List.replicate p.breaks cfg.newline).flatten.filter inked = [] := by
    induction p.breaks with
    | zero => rfl
    | succ n ih => simp [List.replicate_succ, List.filter_append, hn, ih]
  have h2 : (lineStart cfg p.margin).filter inked = [] := by
    cases p.margin with
    | none => rfl
    | some l =>
      simp only [lineStart, marginText]
      cases cfg.indentation <;> simp [inked]
  have h3 : (List.replicate p.seps ' ').filter inked = [] := by simp [inked]
  rw [Piece.render, List.filter_append, List.filter_append, List.filter_append, h1, h2, h3]
  rfl

theorem filter_pieces (cfg : Config) (hn : cfg.newline.filter inked = []) (p acts : List Act) :
    ((piecesFrom p acts).flatMap (Piece.render cfg)).filter inked = (actTexts acts).filter inked := by
  induction acts generalizing p with
  | nil => rfl
  | cons a r ih =>
    cases a with
    | text s =>
      simp only [piecesFrom, actTexts, List.flatMap_append, List.filter_append, ih]
      congr 1
      by_cases hs : s = []
      · simp [hs]
      · simp [hs, filter_render cfg hn, place]
    | _ => simp only [piecesFrom, actTexts, ih]

/-! ## Independence of the configuration -/

theorem piecesFrom_flat (p acts : List Act) (hp : level p = 0)
    (hb : (p.any fun a => isLine a || isPush a) = false)
    (ha : ∀ a ∈ acts, isLine a = false ∧ isPush a = false) (cfg cfg' : Config) :
    (piecesFrom p acts).flatMap (Piece.render cfg) = (piecesFrom p acts).flatMap (Piece.render cfg') := by
  induction acts generalizing p with
  | nil => rfl
  | cons a r ih =>
    have hpa := ha a List.mem_cons_self
    have hra := fun a h => ha a (List.mem_cons_of_mem _ h)
    have hl : level (p ++ [a]) = 0 := by
      cases a <;> simp_all [level, actInd, isPush]
    have hb' : ((p ++ [a]).any fun a => isLine a || isPush a) = false := by
      simp [List.any_append, hpa] at hb ⊢
      exact hb
    cases a with
    | text s =>
      simp only [piecesFrom, List.flatMap_append, ih _ hl hb' hra]
      congr 1
      by_cases hs : s = []
      · simp [hs]
      · have hbr : breaks p = 0 := by
          have hg : ∀ q : Act → Bool, (∀ a ∈ p, q a = false) → (gap p).any q = false := by
            intro q hq
            rw [List.any_eq_false]
            intro x hx
            have : x ∈ p := by
              have := List.mem_reverse.1 hx
              have := List.takeWhile_subset _ this
              simpa using this
            simp [hq x this]
          have hb2 : ∀ a ∈ p, isLine a = false ∧ isPush a = false := by
            intro a h
            have := List.any_eq_false.1 hb a h
            simpa using this
          simp [breaks, hg isLine (fun a h => (hb2 a h).1), hg isPush (fun a h => (hb2 a h).2)]
        have hm : ∀ c : Config, lineStart c (place p s).margin = [] := by
          intro c
          simp only [place, hbr, hp]
          cases isFirst p <;> simp [lineStart, marginText]
          cases c.indentation <;> simp
        have hpb : (place p s).breaks = 0 := hbr
        simp [hs, Piece.render, hm, hpb]
    | _ => simp only [piecesFrom]; exact ih _ hl hb' hra

mutual
theorem code_acts_cfg (L : Lang ι) (c : Code ι) (h : c.flatInner = true) (cfg cfg' : Config) :
    c.acts L cfg = c.acts L cfg' := by
  match c with
  | .nil => rfl
  | .item i r =>
    simp only [Code.flatInner] at h
    simp only [Code.acts, code_acts_cfg L r h cfg cfg']
  | .quote e b r =>
    simp only [Code.flatInner, Bool.and_eq_true] at h
    simp only [Code.acts, code_acts_cfg L r h.2 cfg cfg', body_acts_cfg L b h.1 cfg cfg']
theorem body_acts_cfg (L : Lang ι) (b : Body ι) (h : b.flatInner = true) (cfg cfg' : Config) :
    b.acts L cfg = b.acts L cfg' := by
  match b with
  | .nil => rfl
  | .item i r =>
    simp only [Body.flatInner] at h
    simp only [Body.acts, body_acts_cfg L r h cfg cfg']
  | .eval c r =>
    simp only [Body.flatInner, Bool.and_eq_true] at h
    simp only [Body.acts, body_acts_cfg L r h.2 cfg cfg', code_acts_cfg L c h.1 cfg cfg']
  | .inner is r =>
    simp only [Body.flatInner, Bool.and_eq_true] at h
    simp only [Body.acts, body_acts_cfg L r h.2 cfg cfg']
    congr 3
    simp only [render, pieces]
    apply piecesFrom_flat [] _ rfl rfl
    intro a ha
    simp only [List.mem_append, List.mem_map, List.mem_flatMap] at ha
    rcases ha with (⟨t, _, rfl⟩ | ⟨i, hi, ha⟩) | ⟨t, _, rfl⟩
    · exact ⟨rfl, rfl⟩
    · have := List.all_eq_true.1 h.1 i hi
      cases i with
      | lang p i =>
        simp only [plainActs, List.mem_map] at ha
        obtain ⟨t, _, rfl⟩ := ha
        exact ⟨rfl, rfl⟩
      | push => simp at this
      | line => simp at this
      | indentation n => simp at this
      | _ => simp [plainActs] at ha <;> simp [ha, isLine, isPush]
    · exact ⟨rfl, rfl⟩
end

/-- A line as its indentation level (if it has one) and the rest. -/
abbrev AbsLine := Option Nat × Str

/-- The text of such a line. -/
def AbsLine.text (cfg : Config) (l : AbsLine) : Str :=
  lineStart cfg l.1 ++ l.2

/-- Abstract run of the vector writer. -/
structure AbsVec where
  buf : AbsLine
  target : List AbsLine

/-- What the abstract run stands for. -/
def AbsVec.conc (cfg : Config) (v : AbsVec) : VecState :=
  ⟨v.buf.text cfg, v.target.map (AbsLine.text cfg)⟩

/-- One action on the abstract run. -/
def absAct (st : LSt) (v : AbsVec) : Act → AbsVec
  | .text s =>
    if s = [] then v else
    match st.line with
    | .initial =>
      { v with buf := (some st.indent.toNat, List.replicate st.spaces ' ' ++ s) }
    | .none => { v with buf := (v.buf.1, v.buf.2 ++ (List.replicate st.spaces ' ' ++ s)) }
    | .push => { buf := (some st.indent.toNat, List.replicate st.spaces ' ' ++ s),
                 target := v.target ++ [v.buf] }
    | .line => { buf := (some st.indent.toNat, List.replicate st.spaces ' ' ++ s),
                 target := v.target ++ [v.buf, (none, [])] }
  | _ => v

/-- Actions on the abstract run. -/
def absActs : LSt → AbsVec → List Act → AbsVec
  | _, v, [] => v
  | st, v, a :: r => absActs (actSt st a) (absAct st v a) r

theorem absAct_conc (cfg : Config) (st : LSt) (v : AbsVec) (a : Act)
    (h : st.line = .initial → v.buf = (none, [])) :
    vecAct cfg st (v.conc cfg) a = (absAct st v a).conc cfg ∧
      ((actSt st a).line = .initial → (absAct st v a).buf = (none, [])) := by
  cases hv : visible a with
  | false =>
    have h1 : absAct st v a = v := by
      cases a with
      | text s =>
        have : s = [] := by simpa [visible] using hv
        simp [absAct, this]
      | _ => rfl
    rw [vecAct_ws hv, h1]
    exact ⟨rfl, fun h' => h ((actSt_initial hv).1 h')⟩
  | true =>
    cases a with
    | text s =>
      have hs : s ≠ [] := by simpa [visible] using hv
      refine ⟨?_, by simp [actSt, hs, LSt.flushed]⟩
      simp only [vecAct, absAct, hs, if_false]
      cases hl : st.line with
      | initial =>
        have := h hl
        simp [AbsVec.conc, AbsLine.text, lineStart, flushPad, hl, this]
      | none => simp [AbsVec.conc, AbsLine.text, flushPad, hl]
      | push => simp [AbsVec.conc, AbsLine.text, lineStart, flushPad, hl]
      | line => simp [AbsVec.conc, AbsLine.text, lineStart, flushPad, hl]
    | _ => simp [visible] at hv

theorem absActs_conc (cfg : Config) (st : LSt) (v : AbsVec) (acts : List Act)
    (h : st.line = .initial → v.buf = (none, [])) :
    vecActs cfg st (v.conc cfg) acts = (absActs st v acts).conc cfg := by
  induction acts generalizing st v with
  | nil => rfl
  | cons a r ih =>
    simp only [vecActs, absActs]
    rw [(absAct_conc cfg st v a h).1]
    exact ih _ _ (absAct_conc cfg st v a h).2

end Genco
