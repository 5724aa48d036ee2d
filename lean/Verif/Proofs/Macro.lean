import Verif.Spec.Macro

/-!
# The encoder of the macros
-/

set_option autoImplicit false

namespace Genco.Macro

open Spec Spec.MacroFile

variable {ι E : Type}

/-! ## Enclosing lines -/

theorem enclosing_lt (c : Nat) (past : List Nat) : ∀ x ∈ enclosing c past, x < c := by
  induction past generalizing c with
  | nil => intro x hx; simp [enclosing] at hx
  | cons p past ih =>
    intro x hx
    rw [enclosing] at hx
    split at hx
    · rename_i h
      rcases List.mem_cons.1 hx with rfl | hx
      · exact h
      · exact Nat.lt_trans (ih p x hx) h
    · exact ih c x hx

theorem enclosing_sorted (c : Nat) (past : List Nat) : (enclosing c past).Pairwise (· > ·) := by
  induction past generalizing c with
  | nil => exact List.Pairwise.nil
  | cons p past ih =>
    rw [enclosing]
    split
    · exact List.pairwise_cons.2 ⟨enclosing_lt p past, ih p⟩
    · exact ih c

theorem enclosing_le (c p : Nat) (past : List Nat) (h : c ≤ p) :
    enclosing c past = (enclosing p past).dropWhile (c ≤ ·) := by
  induction past generalizing c p with
  | nil => rfl
  | cons q past ih =>
    rw [enclosing, enclosing]
    by_cases h1 : q < c
    · have h2 : q < p := Nat.lt_of_lt_of_le h1 h
      rw [if_pos h1, if_pos h2, List.dropWhile_cons_of_neg (by simpa using h1)]
    · rw [if_neg h1]
      by_cases h2 : q < p
      · rw [if_pos h2, List.dropWhile_cons_of_pos (by simpa using h1)]
        exact ih c q (by omega)
      · rw [if_neg h2]
        exact ih c p h

theorem enclosing_same (p : Nat) (past : List Nat) : enclosing p (p :: past) = enclosing p past := by
  simp [enclosing]

theorem enclosing_in (c p : Nat) (past : List Nat) (h : p < c) :
    enclosing c (p :: past) = p :: enclosing p past := by
  simp [enclosing, h]

theorem enclosing_out (c p : Nat) (past : List Nat) (h : c < p) :
    enclosing c (p :: past) = (enclosing p past).dropWhile (c ≤ ·) := by
  rw [enclosing, if_neg (by omega), enclosing_le c p past (by omega)]

/-! ## Closing levels -/

/-- The calls for one closed level. -/
def closeOne (line : Bool) : List (Stmt ι E) := .call .unindent :: (if line then [.call .line] else [])

theorem unindents_ok (to : Nat) (line : Bool) (a b : List Nat) (ha : ∀ x ∈ a, to < x) :
    Enc.unindents (ι := ι) (E := E) to line (a ++ to :: b) =
      .ok (b, (List.replicate (a.length + 1) (closeOne line)).flatten) := by
  induction a with
  | nil => simp [Enc.unindents, closeOne]
  | cons x a ih =>
    have ih := ih (fun y hy => ha y (by simp [hy]))
    have hx := ha x (by simp)
    rw [List.cons_append, Enc.unindents, if_pos ⟨hx, by simp⟩, ih]
    rw [List.length_cons, List.replicate_succ (n := a.length + 1)]
    rfl

theorem unindents_error (to : Nat) (line : Bool) (l : List Nat) (hs : l.Pairwise (· > ·)) (h0 : l ≠ [])
    (h : to ∉ l) : ∃ e, Enc.unindents (ι := ι) (E := E) to line l = .error e := by
  induction l with
  | nil => exact absurd rfl h0
  | cons x l ih =>
    rw [Enc.unindents]
    have hx : x ≠ to := fun e => h (by simp [e])
    by_cases h1 : x > to ∧ l ≠ []
    · rw [if_pos h1]
      obtain ⟨e, he⟩ := ih (List.pairwise_cons.1 hs).2 h1.2 (fun h' => h (by simp [h']))
      rw [he]
      exact ⟨e, rfl⟩
    · rw [if_neg h1, if_neg hx]
      exact ⟨_, rfl⟩

/-- The open levels when the next line is at column `to`. -/
theorem unindents_enclosing (to p : Nat) (past : List Nat) (line : Bool) (h : to < p) :
    (Falls to p past → Enc.unindents (ι := ι) (E := E) to line (enclosing p past) =
      .ok (enclosing to (p :: past), [])) ∧
    (¬ Falls to p past → Legal to p past →
      Enc.unindents (ι := ι) (E := E) to line (enclosing p past) =
        .ok (enclosing to (p :: past), (List.replicate (depth p past - depth to (p :: past))
          (closeOne line)).flatten)) ∧
    (Legal to p past → depth to (p :: past) < depth p past) ∧
    (¬ Falls to p past → ¬ Legal to p past →
      ∃ e, Enc.unindents (ι := ι) (E := E) to line (enclosing p past) = .error e) := by
  have key : Legal to p past → ∃ a b, enclosing p past = a ++ to :: b ∧ (∀ x ∈ a, to < x) ∧
      enclosing to (p :: past) = b := by
    intro hl
    have hm : to ∈ enclosing p past := by
      rcases hl with h1 | h1 | h1
      · omega
      · omega
      · exact h1
    obtain ⟨a, b, hab⟩ := List.append_of_mem hm
    have hs := enclosing_sorted p past
    rw [hab] at hs
    obtain ⟨-, hs2, hs3⟩ := List.pairwise_append.1 hs
    have ha : ∀ x ∈ a, to < x := fun x hx => hs3 x hx to (by simp)
    have hb : ∀ x ∈ b, x < to := (List.pairwise_cons.1 hs2).1
    refine ⟨a, b, hab, ha, ?_⟩
    rw [enclosing_out to p past h, hab, List.dropWhile_append_of_pos (fun x hx => by
      have := ha x hx; simp; omega), List.dropWhile_cons_of_pos (by simp)]
    cases b with
    | nil => rfl
    | cons y b => exact List.dropWhile_cons_of_neg (by have := hb y (by simp); simp; omega)
  refine ⟨?_, ?_, ?_, ?_⟩
  · rintro ⟨-, h2⟩
    rw [enclosing_out to p past h, h2]
    rfl
  · intro _ hl
    obtain ⟨a, b, hab, ha, hb⟩ := key hl
    rw [depth, depth, hb, hab, unindents_ok to line a b ha]
    rw [show (a ++ to :: b).length - b.length = a.length + 1 by simp; omega]
  · intro hl
    obtain ⟨a, b, hab, ha, hb⟩ := key hl
    rw [depth, depth, hb, hab]
    simp; omega
  · intro hf hl
    refine unindents_error to line _ (enclosing_sorted p past) (fun e => hf ⟨h, e⟩) ?_
    exact fun hm => hl (.inr (.inr hm))

/-! ## What the encoder has written -/

/-- What generated code does, told apart by characters. Code without access to the
stream does nothing. -/
inductive Ev (ι E : Type) where
  | char (c : Char)
  | stmt (s : Stmt ι E)

def evOf : Stmt ι E → List (Ev ι E)
  | .call (.append (.literal (.static s))) => s.map .char
  | .scope false _ => []
  | s => [.stmt s]

/-- What a block does. -/
def evs (ss : List (Stmt ι E)) : List (Ev ι E) := ss.flatMap evOf

def wsEv (c : WsCall) : Ev ι E := .stmt (.call c.call)

/-- Whitespace calls. -/
def wsEvs (w : List WsCall) : List (Ev ι E) := w.map wsEv

/-- Output and buffer. -/
def Enc.written (e : Enc ι E) : List (Ev ι E) := evs e.output ++ e.itemBuffer.map .char

theorem evs_append (a b : List (Stmt ι E)) : evs (a ++ b) = evs a ++ evs b := by simp [evs]

theorem evs_nil : evs ([] : List (Stmt ι E)) = [] := rfl

theorem flush_written (e : Enc ι E) : e.flush.written = e.written ∧ e.flush.itemBuffer = [] := by
  unfold Enc.flush
  split
  · rename_i h; exact ⟨rfl, h⟩
  · refine ⟨?_, rfl⟩
    simp [Enc.written, Enc.extend, evs, evOf]

theorem evs_flush (e : Enc ι E) : evs e.flush.output = e.written := by
  rw [← (flush_written e).1, Enc.written, (flush_written e).2]; simp

theorem flush_same (e : Enc ι E) : e.flush.spanStart = e.spanStart ∧ e.flush.spanEnd = e.spanEnd ∧
    e.flush.last = e.last ∧ e.flush.lastStartColumn = e.lastStartColumn ∧ e.flush.indents = e.indents ∧
    e.flush.requirements = e.requirements := by
  unfold Enc.flush
  split <;> simp [Enc.extend]

theorem written_extend (e : Enc ι E) (h : e.itemBuffer = []) (ss : List (Stmt ι E)) :
    (e.extend ss).written = e.written ++ evs ss := by
  simp [Enc.written, Enc.extend, evs_append, h]

theorem written_flush_extend (e : Enc ι E) (ss : List (Stmt ι E)) :
    (e.flush.extend ss).written = e.written ++ evs ss := by
  rw [written_extend _ (flush_written e).2, (flush_written e).1]

theorem evs_ws (w : List WsCall) : evs (w.map (fun c => Stmt.call (ι := ι) (E := E) c.call)) = wsEvs w := by
  induction w with
  | nil => rfl
  | cons c w ih =>
    simp only [evs, wsEvs, List.map_cons, List.flatMap_cons] at ih ⊢
    rw [ih]
    cases c <;> rfl

theorem evs_closeOne (n : Nat) (line : Bool) :
    evs (List.replicate n (closeOne (ι := ι) (E := E) line)).flatten =
      wsEvs (List.replicate n (WsCall.unindent :: (if line then [.line] else []))).flatten := by
  rw [← evs_ws, List.map_flatten, List.map_replicate]
  cases line <;> rfl

/-- The encoder is about to place something behind a piece that ends at `stop`. -/
structure Ready (e : Enc ι E) (p : Nat) (past : List Nat) : Prop where
  start : e.spanStart = none
  column : e.lastStartColumn = some p
  indents : e.indents = enclosing p past

/-- `tokenizeWhitespace` against the specification. -/
theorem tokenize_spec (e : Enc ι E) (p : Nat) (past : List Nat) (h : Ready e p past) (stop to : Pos) :
    (gapBefore p past stop to = none → ∃ x, e.tokenizeWhitespace stop to = .error x) ∧
    ∀ w, gapBefore p past stop to = some w → ∃ e', e.tokenizeWhitespace stop to = .ok e' ∧
      e'.written = e.written ++ wsEvs w ∧ e'.spanStart = none ∧ e'.spanEnd = e.spanEnd ∧
      e'.last = e.last ∧ e'.requirements = e.requirements ∧
      (stop.line = to.line → e'.lastStartColumn = some p ∧ e'.indents = enclosing p past) ∧
      (stop.line ≠ to.line → e'.lastStartColumn = none ∧ e'.indents = enclosing to.column (p :: past)) := by
  unfold gapBefore Enc.tokenizeWhitespace
  have fl := flush_same e
  by_cases h1 : stop.line = to.line
  · rw [if_pos h1]
    refine ⟨by simp, ?_⟩
    intro w hw
    simp only [Option.some.injEq] at hw
    by_cases h2 : stop = to
    · subst h2
      rw [if_pos rfl]
      refine ⟨e, rfl, ?_, h.start, rfl, rfl, rfl, fun _ => ⟨h.column, h.indents⟩, fun h => absurd rfl h⟩
      rw [if_neg (Nat.lt_irrefl _)] at hw
      subst hw; simp [wsEvs]
    · rw [if_neg h2, if_pos h1]
      by_cases h3 : stop.column < to.column
      · rw [if_pos h3]
        rw [if_pos h3] at hw
        refine ⟨_, rfl, ?_, ?_, fl.2.1, fl.2.2.1, fl.2.2.2.2.2, fun _ => ⟨?_, ?_⟩, fun h => absurd h1 h⟩
        · rw [written_flush_extend, ← hw]; rfl
        · exact fl.1.trans h.start
        · exact fl.2.2.2.1.trans h.column
        · exact fl.2.2.2.2.1.trans h.indents
      · rw [if_neg h3]
        rw [if_neg h3] at hw
        refine ⟨e, rfl, ?_, h.start, rfl, rfl, rfl, fun _ => ⟨h.column, h.indents⟩, fun h => absurd h1 h⟩
        subst hw; simp [wsEvs]
  · have h2 : stop ≠ to := fun e => h1 (by rw [e])
    rw [if_neg h1, if_neg h2, if_neg h1]
    dsimp only
    by_cases h3 : to.line < stop.line
    · rw [if_pos h3, if_pos h3]
      exact ⟨fun _ => ⟨_, rfl⟩, by simp⟩
    · rw [if_neg h3, if_neg h3, fl.2.2.2.1, h.column]
      dsimp only
      generalize decide (to.line - stop.line > 1) = line
      by_cases h4 : p < to.column
      · rw [if_pos h4]
        have hl : Legal to.column p past := .inl h4
        have hf : ¬ Falls to.column p past := fun hf => absurd hf.1 (by omega)
        rw [if_neg hf, if_pos hl]
        refine ⟨by simp, ?_⟩
        intro w hw
        have hd : depth to.column (p :: past) = depth p past + 1 := by
          rw [depth, enclosing_in _ _ _ h4]; rfl
        simp only [Option.some.injEq, breakCalls, hd, Nat.lt_succ_self, if_true] at hw
        refine ⟨_, rfl, ?_, fl.1.trans h.start, fl.2.1, fl.2.2.1, fl.2.2.2.2.2, fun h => absurd h h1, fun _ => ⟨rfl, ?_⟩⟩
        · have := written_flush_extend e (Stmt.call .indent :: (if line then [.call .line] else []))
          refine Eq.trans ?_ (this.trans ?_)
          · rfl
          · rw [← hw, ← evs_ws]; cases line <;> rfl
        · show p :: (e.flush).indents = _
          rw [fl.2.2.2.2.1, h.indents, enclosing_in _ _ _ h4]
      · rw [if_neg h4]
        by_cases h5 : p > to.column
        · rw [if_pos h5]
          obtain ⟨u1, u2, u3, u4⟩ := unindents_enclosing (ι := ι) (E := E) to.column p past line h5
          have hi : e.flush.indents = enclosing p past := fl.2.2.2.2.1.trans h.indents
          rw [show ({ e.flush with lastStartColumn := none } : Enc ι E).indents = enclosing p past from hi]
          by_cases hf : Falls to.column p past
          · rw [if_pos hf, u1 hf]
            refine ⟨by simp, ?_⟩
            intro w hw
            simp only [Option.some.injEq] at hw
            refine ⟨_, rfl, ?_, fl.1.trans h.start, fl.2.1, fl.2.2.1, fl.2.2.2.2.2, fun h => absurd h h1, fun _ => ⟨rfl, rfl⟩⟩
            refine Eq.trans ?_ (written_flush_extend e [] |>.trans ?_)
            · rfl
            · rw [← hw]; rfl
          · rw [if_neg hf]
            by_cases hl : Legal to.column p past
            · rw [if_pos hl, u2 hf hl]
              refine ⟨by simp, ?_⟩
              intro w hw
              simp only [Option.some.injEq] at hw
              refine ⟨_, rfl, ?_, fl.1.trans h.start, fl.2.1, fl.2.2.1, fl.2.2.2.2.2, fun h => absurd h h1, fun _ => ⟨rfl, rfl⟩⟩
              refine Eq.trans ?_ ((written_flush_extend e (List.replicate
                (depth p past - depth to.column (p :: past)) (closeOne line)).flatten).trans ?_)
              · rfl
              · have u3 := u3 hl
                have n1 : ¬ depth p past < depth to.column (p :: past) := by omega
                have n2 : ¬ depth p past = depth to.column (p :: past) := by omega
                rw [evs_closeOne, ← hw, breakCalls, if_neg n1, if_neg n2]
            · rw [if_neg hl]
              obtain ⟨x, hx⟩ := u4 hf hl
              rw [hx]
              exact ⟨fun _ => ⟨x, rfl⟩, by simp⟩
        · rw [if_neg h5]
          have h6 : to.column = p := by omega
          have hl : Legal to.column p past := .inr (.inl h6)
          have hf : ¬ Falls to.column p past := fun hf => absurd hf.1 (by omega)
          rw [if_neg hf, if_pos hl]
          refine ⟨by simp, ?_⟩
          intro w hw
          have he : enclosing to.column (p :: past) = enclosing p past := by rw [h6, enclosing_same]
          simp only [Option.some.injEq, breakCalls, depth, he, Nat.lt_irrefl, if_false, if_true] at hw
          cases line with
          | true =>
            refine ⟨_, rfl, ?_, fl.1.trans h.start, fl.2.1, fl.2.2.1, fl.2.2.2.2.2, fun h => absurd h h1, fun _ => ⟨rfl, ?_⟩⟩
            · refine Eq.trans ?_ ((written_flush_extend e [.call .line]).trans ?_)
              · rfl
              · rw [← hw]; rfl
            · exact (fl.2.2.2.2.1.trans h.indents).trans he.symm
          | false =>
            refine ⟨_, rfl, ?_, fl.1.trans h.start, fl.2.1, fl.2.2.1, fl.2.2.2.2.2, fun h => absurd h h1, fun _ => ⟨rfl, ?_⟩⟩
            · refine Eq.trans ?_ ((written_flush_extend e [.call .push]).trans ?_)
              · rfl
              · rw [← hw]; rfl
            · exact (fl.2.2.2.2.1.trans h.indents).trans he.symm

/-! ## Pieces -/

/-- What a piece does. -/
def astEvs : Ast ι E → List (Ev ι E)
  | .tree text => text.map .char
  | .literal s => s.map .char
  | .string hasEval stream =>
    .stmt (.call (.append (.openQuote hasEval))) :: evs stream ++ [.stmt (.call (.append .closeQuote))]
  | .quoted s =>
    .stmt (.call (.append (.openQuote false))) :: s.map .char ++ [.stmt (.call (.append .closeQuote))]
  | .delimiterOpen d => [.char d.encodeOpen]
  | .delimiterClose d => [.char d.encodeClose]
  | .control .space => [.stmt (.call .space)]
  | .control .push => [.stmt (.call .push)]
  | .control .line => [.stmt (.call .line)]
  | .scope bound content => if bound then [.stmt (.scope true content)] else []
  | .eval x => [.stmt (.value x)]
  | .loop pat iter (some join) stream => [.stmt (.joinIn pat iter join stream)]
  | .loop pat iter none stream => [.stmt (.forIn pat iter stream)]
  | .condition c t none => [.stmt (.ifThen c t)]
  | .condition c t (some f) => [.stmt (.ifElse c t f)]
  | .select x arms => [.stmt (.select x arms)]
  | .bind pat x => [.stmt (.bind pat x)]

theorem written_pushStr (e : Enc ι E) (s : Str) : (e.pushStr s).written = e.written ++ s.map .char := by
  simp [Enc.written, Enc.pushStr]

theorem encodeAst_written (e : Enc ι E) (a : Ast ι E) :
    (e.encodeAst a).written = e.written ++ astEvs a := by
  cases a with
  | tree text => exact written_pushStr e text
  | literal s => exact written_pushStr e s
  | string b ss =>
    refine (written_flush_extend _ _).trans (congrArg (e.written ++ ·) ?_)
    simp [evs, astEvs, evOf]
  | quoted s =>
    refine (written_flush_extend _ _).trans (congrArg (e.written ++ ·) ?_)
    simp [evs, astEvs, evOf]
  | delimiterOpen d => exact written_pushStr e _
  | delimiterClose d => exact written_pushStr e _
  | control k => cases k <;> exact written_flush_extend _ _
  | eval x => exact written_flush_extend _ _
  | scope b c =>
    cases b with
    | true => exact written_flush_extend _ _
    | false => simp [Enc.encodeAst, Enc.extend, Enc.written, evs_append, astEvs, evs, evOf]
  | loop p i j s => cases j <;> exact written_flush_extend _ _
  | condition c t f => cases f <;> exact written_flush_extend _ _
  | bind p x => exact written_flush_extend _ _
  | select x as => exact written_flush_extend _ _

/-- Strings with interpolations. -/
def astEval : Ast ι E → Bool
  | .string b _ => b
  | _ => false

theorem encodeAst_same (e : Enc ι E) (a : Ast ι E) :
    (e.encodeAst a).spanStart = e.spanStart ∧ (e.encodeAst a).spanEnd = e.spanEnd ∧
    (e.encodeAst a).last = e.last ∧ (e.encodeAst a).lastStartColumn = e.lastStartColumn ∧
    (e.encodeAst a).indents = e.indents ∧
    (e.encodeAst a).requirements = (e.requirements || astEval a) := by
  have fl := flush_same e
  cases a with
  | string b ss =>
    obtain ⟨f1, f2, f3, f4, f5, f6⟩ := flush_same { e with requirements := e.requirements || b }
    exact ⟨f1, f2, f3, f4, f5, f6⟩
  | control k => cases k <;> simp [Enc.encodeAst, Enc.extend, fl, astEval]
  | scope b c => cases b <;> simp [Enc.encodeAst, Enc.extend, fl, astEval]
  | loop p i j s => cases j <;> simp [Enc.encodeAst, Enc.extend, fl, astEval]
  | condition c t f => cases f <;> simp [Enc.encodeAst, Enc.extend, fl, astEval]
  | _ => simp [Enc.encodeAst, Enc.extend, Enc.pushStr, fl, astEval]

/-- The encoder has placed a piece that ends at `stop`. -/
structure Placed (e : Enc ι E) (p : Nat) (past : List Nat) (stop : Pos) : Prop where
  start : e.spanStart = none
  last : ∃ s, e.last = some ⟨s, stop⟩ ∧ (e.lastStartColumn = none → s.column = p)
  column : ∀ c, e.lastStartColumn = some c → c = p
  indents : e.indents = enclosing p past

theorem Placed.origin {e : Enc ι E} {p : Nat} {past : List Nat} {stop : Pos} (h : Placed e p past stop) :
    e.origin = ({ e with lastStartColumn := some p }, some stop) := by
  obtain ⟨h1, ⟨s, h2, h3⟩, h4, h5⟩ := h
  unfold Enc.origin
  rw [h1, h2]
  dsimp only
  by_cases hc : e.lastStartColumn = none
  · rw [if_pos hc, h3 hc]
  · rw [if_neg hc]
    obtain ⟨c, hc'⟩ := Option.ne_none_iff_exists'.1 hc
    have := h4 c hc'
    subst this
    rw [← hc', ← h2]
    cases e
    simp_all

/-- Something is known before the next piece: a piece before it or a given start. -/
def Enters (e : Enc ι E) (p : Nat) (past : List Nat) (stop : Pos) : Prop :=
  ∃ e', e.origin = (e', some stop) ∧ Ready e' p past ∧ e'.written = e.written ∧ e'.spanEnd = e.spanEnd ∧
    e'.requirements = e.requirements

theorem Placed.enters {e : Enc ι E} {p : Nat} {past : List Nat} {stop : Pos} (h : Placed e p past stop) :
    Enters e p past stop :=
  ⟨_, h.origin, ⟨h.start, rfl, h.indents⟩, rfl, rfl, rfl⟩

theorem enters_start (start finish : Pos) :
    Enters (Enc.new (ι := ι) (E := E) (some start) (some finish)) start.column [] start :=
  ⟨_, rfl, ⟨rfl, rfl, rfl⟩, rfl, rfl, rfl⟩

/-- One piece. -/
theorem encode_spec {e : Enc ι E} {p : Nat} {past : List Nat} {stop : Pos} (h : Enters e p past stop)
    (cur : Cur) (a : Ast ι E) :
    (gapBefore p past stop cur.start = none → ∃ x, e.encode cur a = .error x) ∧
    ∀ w, gapBefore p past stop cur.start = some w → ∃ e', e.encode cur a = .ok e' ∧
      e'.written = e.written ++ wsEvs w ++ astEvs a ∧ e'.spanEnd = e.spanEnd ∧
      e'.requirements = (e.requirements || astEval a) ∧
      (stop.line = cur.start.line → Placed e' p past cur.stop) ∧
      (stop.line ≠ cur.start.line → Placed e' cur.start.column (p :: past) cur.stop) := by
  obtain ⟨e1, h1, hr, hw1, hs1, hq1⟩ := h
  obtain ⟨t1, t2⟩ := tokenize_spec e1 p past hr stop cur.start
  unfold Enc.encode Enc.step
  rw [h1]
  dsimp only
  refine ⟨?_, ?_⟩
  · intro hn
    obtain ⟨x, hx⟩ := t1 hn
    rw [hx]
    exact ⟨x, rfl⟩
  · intro w hw
    obtain ⟨e2, g1, g2, g3, g4, g5, g6, g7, g8⟩ := t2 w hw
    rw [g1]
    obtain ⟨a1, a2, a3, a4, a5, a6⟩ := encodeAst_same { e2 with last := some cur } a
    refine ⟨_, rfl, ?_, a2.trans (g4.trans hs1), ?_, ?_, ?_⟩
    · rw [encodeAst_written]
      show e2.written ++ _ = _
      rw [g2, hw1]
    · rw [a6]
      show (e2.requirements || _) = _
      rw [g6, hq1]
    · intro hl
      obtain ⟨c1, c2⟩ := g7 hl
      refine ⟨a1.trans g3, ⟨cur.start, a3, ?_⟩, ?_, a5.trans c2⟩
      · intro hc; rw [a4] at hc; exact absurd (c1.symm.trans hc) (by simp)
      · intro c hc; rw [a4] at hc; exact Option.some.inj (hc.symm.trans c1)
    · intro hl
      obtain ⟨c1, c2⟩ := g8 hl
      refine ⟨a1.trans g3, ⟨cur.start, a3, fun _ => rfl⟩, ?_, a5.trans c2⟩
      intro c hc; rw [a4] at hc; exact absurd (c1.symm.trans hc) (by simp)

/-- The first piece, without a given start. -/
theorem encode_first (cur : Cur) (a : Ast ι E) (f : Option Pos) :
    ∃ e', (Enc.new none f).encode cur a = .ok e' ∧ e'.written = astEvs a ∧ e'.spanEnd = f ∧
      e'.requirements = astEval a ∧ Placed e' cur.start.column [] cur.stop := by
  obtain ⟨a1, a2, a3, a4, a5, a6⟩ := encodeAst_same { Enc.new (ι := ι) (E := E) none f with last := some cur } a
  refine ⟨_, rfl, ?_, a2, a6, a1, ⟨cur.start, a3, fun _ => rfl⟩, ?_, a5⟩
  · rw [encodeAst_written]; rfl
  · intro c hc; rw [a4] at hc; cases hc

/-- All pieces. -/
def encodeAll (e : Enc ι E) : List (Cur × Ast ι E) → Except Err (Enc ι E)
  | [] => .ok e
  | p :: ps => do encodeAll (← e.encode p.1 p.2) ps

theorem unindent_evs (n : Nat) :
    evs (List.replicate n (Stmt.call (ι := ι) (E := E) .unindent)) = wsEvs (List.replicate n .unindent) := by
  rw [← evs_ws, List.map_replicate]; rfl

theorem wsEvs_append (a b : List WsCall) : wsEvs (ι := ι) (E := E) (a ++ b) = wsEvs a ++ wsEvs b := by
  simp [wsEvs]

/-- The pieces with what they do. -/
def pieceEvs (ps : List (Cur × Ast ι E)) : List (Cur × List (Ev ι E)) := ps.map (fun p => (p.1, astEvs p.2))

theorem origin_spanEnd (e : Enc ι E) (f : Option Pos) :
    ({ e with spanEnd := f } : Enc ι E).origin = ({ e.origin.1 with spanEnd := f }, e.origin.2) := by
  obtain ⟨ss, se, ib, o, l, lc, i, r⟩ := e
  cases ss <;> cases l <;> cases lc <;> rfl

/-- The end of a block. -/
theorem finish_spec {e : Enc ι E} {p : Nat} {past : List Nat} {stop : Pos} (h : Enters e p past stop)
    (hs : e.spanEnd = none → Placed e p past stop) :
    (laidOut (wsEv (ι := ι) (E := E)) e.spanEnd p past stop [] = none → ∃ x, e.intoOutput = .error x) ∧
    ∀ out, laidOut (wsEv (ι := ι) (E := E)) e.spanEnd p past stop [] = some out →
        ∃ ss, e.intoOutput = .ok (e.requirements, ss) ∧ evs ss = e.written ++ out := by
  unfold Enc.intoOutput
  cases hf : e.spanEnd with
  | none =>
    simp only [laidOut, Option.some.injEq, reduceCtorEq, false_implies, true_and]
    intro out ho
    refine ⟨_, congrArg (fun r => Except.ok (r, _)) (flush_same e).2.2.2.2.2, ?_⟩
    rw [evs_append, unindent_evs, ← ho, (flush_same e).2.2.2.2.1, (hs hf).indents]
    refine congrArg (· ++ _) ?_
    exact evs_flush e
  | some f =>
    simp only [laidOut, Option.map_eq_none_iff, Option.map_eq_some_iff]
    obtain ⟨e1, h1, hr, hw1, hs1, hq1⟩ := h
    have ho : ({ e with spanEnd := none } : Enc ι E).origin = ({ e1 with spanEnd := none }, some stop) := by
      rw [origin_spanEnd, h1]
    rw [ho]
    dsimp only
    obtain ⟨t1, t2⟩ := tokenize_spec { e1 with spanEnd := none } p past ⟨hr.start, hr.column, hr.indents⟩ stop f
    refine ⟨?_, ?_⟩
    · intro hn
      obtain ⟨x, hx⟩ := t1 hn
      rw [hx]
      exact ⟨x, rfl⟩
    · rintro out ⟨w, hw, rfl⟩
      obtain ⟨e2, g1, g2, g3, g4, g5, g6, g7, g8⟩ := t2 w hw
      rw [g1]
      refine ⟨_, congrArg (fun r => Except.ok (r, _)) ((flush_same e2).2.2.2.2.2.trans (g6.trans hq1)), ?_⟩
      rw [evs_append, unindent_evs, evs_flush, g2, (flush_same e2).2.2.2.2.1]
      show _ = e.written ++ wsEvs (w ++ _)
      rw [wsEvs_append, ← List.append_assoc]
      show e1.written ++ wsEvs w ++ _ = e.written ++ wsEvs w ++ wsEvs _
      rw [hw1]
      refine congrArg (fun b => _ ++ wsEvs (List.replicate b .unindent)) ?_
      by_cases hl : stop.line = f.line
      · rw [if_pos hl, (g7 hl).2]; rfl
      · rw [if_neg hl, (g8 hl).2]; rfl

theorem all_spec (ps : List (Cur × Ast ι E)) : ∀ {e : Enc ι E} {p : Nat} {past : List Nat} {stop : Pos}
    (_ : Enters e p past stop) (_ : e.spanEnd = none → Placed e p past stop),
    (laidOut wsEv e.spanEnd p past stop (pieceEvs ps) = none →
      ∃ x, (encodeAll e ps >>= Enc.intoOutput) = .error x) ∧
    ∀ out, laidOut wsEv e.spanEnd p past stop (pieceEvs ps) = some out →
      ∃ ss, (encodeAll e ps >>= Enc.intoOutput) = .ok (e.requirements || ps.any (fun p => astEval p.2), ss) ∧
        evs ss = e.written ++ out := by
  induction ps with
  | nil =>
    intro e p past stop h hs
    obtain ⟨f1, f2⟩ := finish_spec h hs
    refine ⟨f1, fun out ho => ?_⟩
    rw [List.any_nil, Bool.or_false]
    exact f2 out ho
  | cons q ps ih =>
    intro e p past stop h hs
    obtain ⟨cur, a⟩ := q
    obtain ⟨s1, s2⟩ := encode_spec h cur a
    simp only [pieceEvs, List.map_cons, laidOut, encodeAll]
    cases hg : gapBefore p past stop cur.start with
    | none =>
      obtain ⟨x, hx⟩ := s1 hg
      rw [hx]
      exact ⟨fun _ => ⟨x, rfl⟩, by simp⟩
    | some w =>
      obtain ⟨e', g1, g2, g3, g4, g5, g6⟩ := s2 w hg
      rw [g1]
      simp only [Option.bind_some, Option.map_eq_none_iff, Option.map_eq_some_iff]
      by_cases hl : stop.line = cur.start.line
      · rw [if_pos hl]
        obtain ⟨i1, i2⟩ := ih (g5 hl).enters (fun _ => g5 hl)
        rw [g3] at i1 i2
        refine ⟨i1, ?_⟩
        rintro out ⟨rest, hr, rfl⟩
        obtain ⟨ss, k1, k2⟩ := i2 rest hr
        refine ⟨ss, ?_, ?_⟩
        · rw [g4] at k1
          rw [List.any_cons, ← Bool.or_assoc]
          exact k1
        · rw [k2, g2]; simp [wsEvs]
      · rw [if_neg hl]
        obtain ⟨i1, i2⟩ := ih (g6 hl).enters (fun _ => g6 hl)
        rw [g3] at i1 i2
        refine ⟨i1, ?_⟩
        rintro out ⟨rest, hr, rfl⟩
        obtain ⟨ss, k1, k2⟩ := i2 rest hr
        refine ⟨ss, ?_, ?_⟩
        · rw [g4] at k1
          rw [List.any_cons, ← Bool.or_assoc]
          exact k1
        · rw [k2, g2]; simp [wsEvs]

/-- Start and end a span stands for. -/
theorem startEnc_some (c : Cur) :
    startEnc (ι := ι) (E := E) (some c) = Enc.new (some (inner c).1) (some (inner c).2) := rfl

/-- A block. -/
theorem block_spec (span : Option Cur) (ps : List (Cur × Ast ι E)) :
    (block wsEv (span.map inner) (pieceEvs ps) = none →
      ∃ x, (encodeAll (startEnc span) ps >>= Enc.intoOutput) = .error x) ∧
    ∀ out, block wsEv (span.map inner) (pieceEvs ps) = some out →
      ∃ ss, (encodeAll (startEnc span) ps >>= Enc.intoOutput) = .ok (ps.any (fun p => astEval p.2), ss) ∧
        evs ss = out := by
  cases span with
  | some c =>
    have := all_spec ps (enters_start (ι := ι) (E := E) (inner c).1 (inner c).2) (by intro h; cases h)
    simpa [block, startEnc_some, Enc.written, evs, Enc.new] using this
  | none =>
    cases ps with
    | nil =>
      refine ⟨by simp [block, pieceEvs], ?_⟩
      intro out h
      simp only [block, pieceEvs, Option.map_none, List.map_nil, Option.some.injEq] at h
      exact ⟨[], rfl, h⟩
    | cons q ps =>
      obtain ⟨cur, a⟩ := q
      obtain ⟨e', g1, g2, g3, g4, g5⟩ := encode_first cur a none
      obtain ⟨i1, i2⟩ := all_spec ps g5.enters (fun _ => g5)
      rw [g3] at i1 i2
      simp only [block, pieceEvs, Option.map_none, List.map_cons, Option.map_eq_none_iff, Option.map_eq_some_iff,
        encodeAll]
      rw [show startEnc (ι := ι) (E := E) none = Enc.new none none from rfl, g1]
      refine ⟨i1, ?_⟩
      rintro out ⟨rest, hr, rfl⟩
      obtain ⟨ss, k1, k2⟩ := i2 rest hr
      refine ⟨ss, ?_, ?_⟩
      · rw [g4] at k1
        rw [List.any_cons]
        exact k1
      · rw [k2, g2]

/-! ## Requirements -/

def Enc.need (e : Enc ι E) (r : Bool) : Enc ι E := { e with requirements := e.requirements || r }

theorem need_need (e : Enc ι E) (a b : Bool) : (e.need a).need b = e.need (a || b) := by
  simp [Enc.need, Bool.or_assoc]

theorem need_false (e : Enc ι E) : e.need false = e := by
  simp [Enc.need]

theorem flush_need (e : Enc ι E) (r : Bool) : (e.need r).flush = e.flush.need r := by
  unfold Enc.flush
  by_cases h : e.itemBuffer = []
  · rw [if_pos h, if_pos (show (e.need r).itemBuffer = [] from h)]
  · rw [if_neg h, if_neg (show ¬ (e.need r).itemBuffer = [] from h)]; rfl

theorem origin_need (e : Enc ι E) (r : Bool) : (e.need r).origin = (e.origin.1.need r, e.origin.2) := by
  obtain ⟨ss, se, ib, o, l, lc, i, r⟩ := e
  cases ss <;> cases l <;> cases lc <;> rfl

theorem tokenize_need (e : Enc ι E) (r : Bool) (a b : Pos) :
    (e.need r).tokenizeWhitespace a b = (e.tokenizeWhitespace a b).map (·.need r) := by
  unfold Enc.tokenizeWhitespace
  by_cases h1 : a = b
  · rw [if_pos h1, if_pos h1]; rfl
  rw [if_neg h1, if_neg h1]
  by_cases h2 : a.line = b.line
  · rw [if_pos h2, if_pos h2]
    by_cases h3 : a.column < b.column
    · rw [if_pos h3, if_pos h3, flush_need]; rfl
    · rw [if_neg h3, if_neg h3]; rfl
  rw [if_neg h2, if_neg h2]
  dsimp only
  by_cases h3 : b.line < a.line
  · rw [if_pos h3, if_pos h3]; rfl
  rw [if_neg h3, if_neg h3, flush_need]
  generalize e.flush = e
  show (match e.lastStartColumn with | none => _ | some c => _) = _
  cases h4 : e.lastStartColumn with
  | none => rfl
  | some c =>
    dsimp only
    by_cases h5 : c < b.column
    · rw [if_pos h5, if_pos h5]; rfl
    rw [if_neg h5, if_neg h5]
    by_cases h6 : c > b.column
    · rw [if_pos h6, if_pos h6]
      show (Enc.unindents b.column _ e.indents >>= _) = _
      cases Enc.unindents (ι := ι) (E := E) b.column (decide (b.line - a.line > 1)) e.indents <;> rfl
    rw [if_neg h6, if_neg h6]
    by_cases h7 : decide (b.line - a.line > 1) = true
    · rw [if_pos h7, if_pos h7]; rfl
    · rw [if_neg h7, if_neg h7]; rfl

theorem encodeAst_need (e : Enc ι E) (r : Bool) (a : Ast ι E) :
    (e.need r).encodeAst a = (e.encodeAst a).need r := by
  cases a with
  | string b ss =>
    simp only [Enc.encodeAst]
    have : ({ e.need r with requirements := (e.need r).requirements || b } : Enc ι E) =
        ({ e with requirements := e.requirements || b } : Enc ι E).need r := by
      simp [Enc.need, Bool.or_right_comm]
    rw [this, flush_need]; rfl
  | control k => cases k <;> simp only [Enc.encodeAst, flush_need] <;> rfl
  | scope b c => cases b <;> simp only [Enc.encodeAst, flush_need] <;> rfl
  | loop p i j s => cases j <;> simp only [Enc.encodeAst, flush_need] <;> rfl
  | condition c t f => cases f <;> simp only [Enc.encodeAst, flush_need] <;> rfl
  | _ => simp only [Enc.encodeAst, flush_need] <;> rfl

theorem encode_need (e : Enc ι E) (r : Bool) (c : Cur) (a : Ast ι E) :
    (e.need r).encode c a = (e.encode c a).map (·.need r) := by
  unfold Enc.encode Enc.step
  rw [origin_need]
  obtain ⟨e1, o⟩ := e.origin
  cases o with
  | none =>
    exact congrArg Except.ok (encodeAst_need { e1 with last := some c } r a)
  | some p =>
    dsimp only
    rw [tokenize_need]
    cases e1.tokenizeWhitespace p c.start with
    | error x => rfl
    | ok e2 => exact congrArg Except.ok (encodeAst_need { e2 with last := some c } r a)

theorem encodeAll_need (ps : List (Cur × Ast ι E)) (r : Bool) : ∀ (e : Enc ι E),
    encodeAll (e.need r) ps = (encodeAll e ps).map (·.need r) := by
  induction ps with
  | nil => intro e; rfl
  | cons p ps ih =>
    intro e
    simp only [encodeAll, encode_need]
    cases e.encode p.1 p.2 with
    | error x => rfl
    | ok e1 => exact ih e1

theorem encodeAll_append (ps qs : List (Cur × Ast ι E)) : ∀ (e : Enc ι E),
    encodeAll e (ps ++ qs) = (encodeAll e ps).bind (encodeAll · qs) := by
  induction ps with
  | nil => intro e; rfl
  | cons p ps ih =>
    intro e
    simp only [encodeAll, List.cons_append]
    cases e.encode p.1 p.2 with
    | error x => rfl
    | ok e1 => exact ih e1

theorem intoOutput_need (e : Enc ι E) (r : Bool) :
    (e.need r).intoOutput = e.intoOutput.map (fun o => (o.1 || r, o.2)) := by
  unfold Enc.intoOutput
  rw [show (e.need r).spanEnd = e.spanEnd from rfl]
  cases e.spanEnd with
  | none =>
    show Except.ok ((e.need r).flush.requirements, _) = _
    rw [flush_need]; rfl
  | some to =>
    dsimp only
    rw [show ({ e.need r with spanEnd := none } : Enc ι E) = Enc.need { e with spanEnd := none } r from rfl,
      origin_need]
    obtain ⟨e1, o⟩ := Enc.origin { e with spanEnd := none }
    cases o with
    | none =>
      show Except.ok ((e1.need r).flush.requirements, _) = _
      rw [flush_need]; rfl
    | some p =>
      dsimp only
      rw [tokenize_need]
      cases e1.tokenizeWhitespace p to with
      | error x => rfl
      | ok e2 =>
        show Except.ok ((e2.need r).flush.requirements, _) = _
        rw [flush_need]; rfl

/-! ## What statements do -/

section Acts

variable {Env : Type} (H : Host ι E Env)

def evAct : Ev ι E → Step ι Env
  | .char c => .mark (.char c)
  | .stmt s => fun ρ => ((runStmt H ρ s).1, marks (runStmt H ρ s).2)

theorem marks_append (a b : List (Call ι)) : marks (a ++ b) = marks a ++ marks b := by simp [marks]

theorem marks_flatMap {α : Type} (l : List α) (f : α → List (Call ι)) :
    marks (l.flatMap f) = l.flatMap (fun x => marks (f x)) := by
  induction l with
  | nil => rfl
  | cons x l ih => rw [List.flatMap_cons, marks_append, ih, List.flatMap_cons]

theorem perform_chars (ρ : Env) (s : Str) (as : List (Step ι Env)) :
    perform ρ (Step.text s ++ as) = s.map .char ++ perform ρ as := by
  induction s with
  | nil => rfl
  | cons c s ih =>
    show Mark.char c :: perform ρ (Step.text s ++ as) = _
    rw [ih]; rfl

theorem evs_chars (s : Str) : (s.map Ev.char).map (evAct H) = Step.text s := by
  rw [List.map_map]; rfl

theorem perform_evs (ss : List (Stmt ι E)) : ∀ (ρ : Env),
    perform ρ ((evs ss).map (evAct H)) = marks (runBlock H ρ ss) := by
  induction ss with
  | nil => intro ρ; rfl
  | cons s ss ih =>
    intro ρ
    have gen : evOf s = [.stmt s] → perform ρ ((evs (s :: ss)).map (evAct H)) = marks (runBlock H ρ (s :: ss)) := by
      intro h
      rw [show evs (s :: ss) = evOf s ++ evs ss from rfl, h]
      show marks (runStmt H ρ s).2 ++ perform (runStmt H ρ s).1 ((evs ss).map (evAct H)) = _
      rw [ih, runBlock, marks_append]
    cases s with
    | call c =>
      cases c with
      | append i =>
        cases i with
        | literal l =>
          cases l with
          | «static» t =>
            rw [show evs (Stmt.call (ι := ι) (E := E) (.append (.literal (.static t))) :: ss) =
              t.map .char ++ evs ss from rfl, List.map_append, evs_chars, perform_chars, ih, runBlock, marks_append]
            simp [runStmt, marks, markOf]
          | _ => exact gen rfl
        | _ => exact gen rfl
      | _ => exact gen rfl
    | scope b c =>
      cases b with
      | true => exact gen rfl
      | false =>
        rw [show evs (Stmt.scope (ι := ι) false c :: ss) = evs ss from rfl, ih, runBlock]
        simp [runStmt]
    | _ => exact gen rfl

theorem runBlock_append (a b : List (Stmt ι E)) : ∀ (ρ : Env),
    runBlock H ρ (a ++ b) = runBlock H ρ a ++ runBlock H (leave H ρ a) b := by
  induction a with
  | nil => intro ρ; simp [runBlock, leave]
  | cons s a ih =>
    intro ρ
    rw [List.cons_append, runBlock, runBlock, ih, List.append_assoc]
    cases s <;> simp [runStmt, leave]

theorem evAct_ws (c : WsCall) : evAct H (wsEv c) = Step.ws c := by
  funext ρ
  cases c <;> rfl

theorem laidOut_map {α β : Type} (ws : WsCall → α) (f : α → β) (finish : Option Pos) (ps : List (Cur × List α)) :
    ∀ (p : Nat) (past : List Nat) (stop : Pos),
    laidOut (f ∘ ws) finish p past stop (ps.map (fun q => (q.1, q.2.map f))) =
      (laidOut ws finish p past stop ps).map (List.map f) := by
  induction ps with
  | nil =>
    intro p past stop
    cases finish with
    | none => simp [laidOut]
    | some fi => simp [laidOut, Function.comp_def]
  | cons q ps ih =>
    intro p past stop
    obtain ⟨cur, ev⟩ := q
    simp only [List.map_cons, laidOut]
    cases gapBefore p past stop cur.start with
    | none => rfl
    | some w =>
      simp only [Option.bind_some]
      split
      · rw [ih]; simp [Function.comp_def]
      · rw [ih]; simp [Function.comp_def]

theorem block_map {α β : Type} (ws : WsCall → α) (f : α → β) (span : Option (Pos × Pos)) (ps : List (Cur × List α)) :
    block (f ∘ ws) span (ps.map (fun q => (q.1, q.2.map f))) = (block ws span ps).map (List.map f) := by
  cases span with
  | some s => exact laidOut_map ws f _ ps _ _ _
  | none =>
    cases ps with
    | nil => rfl
    | cons q ps =>
      obtain ⟨cur, ev⟩ := q
      simp only [List.map_cons, block]
      rw [laidOut_map]
      simp [Function.comp_def]

/-- The pieces with what they do. -/
def actsOf (ps : List (Cur × Ast ι E)) : List (Cur × List (Step ι Env)) :=
  (pieceEvs ps).map (fun q => (q.1, q.2.map (evAct H)))

theorem block_acts (span : Option Cur) (ps : List (Cur × Ast ι E)) :
    block Step.ws (span.map inner) (actsOf H ps) =
      (block wsEv (span.map inner) (pieceEvs ps)).map (List.map (evAct H)) := by
  rw [← block_map]
  refine congrArg (fun w => block w _ _) ?_
  funext c
  exact (evAct_ws H c).symm

/-- Nodes do what is specified. -/
def NodesOk (ns : List (Node E)) : Prop :=
  (stepsOf H ns = none → ∀ e : Enc ι E, ∃ x, nodes e ns = .error x) ∧
  ∀ qs, stepsOf H ns = some qs → ∃ r ps, qs = actsOf H ps ∧
    (r || ps.any (fun p => astEval p.2)) = interpolated ns ∧
    ∀ e : Enc ι E, nodes e ns = (encodeAll e ps).map (·.need r)

def NodeOk (n : Node E) : Prop :=
  (stepOf H n = none → ∀ e : Enc ι E, ∃ x, node e n = .error x) ∧
  ∀ qs, stepOf H n = some qs → ∃ r ps, qs = actsOf H ps ∧
    (r || ps.any (fun p => astEval p.2)) = interpolatedNode n ∧
    ∀ e : Enc ι E, node e n = (encodeAll e ps).map (·.need r)

def ArmsOk (as : List (Arm E)) : Prop :=
  (armActs H as = none → ∃ x, arms (ι := ι) as = .error x) ∧
  ∀ bs, armActs H as = some bs → ∃ out, arms (ι := ι) as = .ok (interpolatedArms as, out) ∧
    ∀ ρ e, chosen H ρ e bs = marks (runArms H ρ e out)

/-- Output and buffer. -/
def StrEnc.written (e : StrEnc ι E) : List (Ev ι E) := evs e.stream ++ e.buf.map .char

/-- All parts, up to the end of the string. -/
def finishParts (e : StrEnc ι E) (req : Bool) (ps : List (Part E)) (close : Pos) :
    Except Err (StrEnc ι E × Bool) := do
  let (s, r) ← parts e req ps
  let s ← s.flush close none
  .ok (s, r)

def PartsOk (ps : List (Part E)) : Prop :=
  ∀ (e : StrEnc ι E) (stop close : Pos) (req : Bool), e.cursor = some stop →
  (strActs H stop close ps = none → ∃ x, finishParts e req ps close = .error x) ∧
  ∀ as, strActs H stop close ps = some as → ∃ s, finishParts e req ps close = .ok (s, req || interpolatedParts ps) ∧
    (evs s.stream).map (evAct H) = e.written.map (evAct H) ++ as ∧
    s.hasEval = (e.hasEval || ps.any isEval)

/-- A block of nodes. -/
theorem quote_ok (span : Option Cur) {ns : List (Node E)} (h : NodesOk H ns) :
    ((stepsOf H ns).bind (block .ws (span.map inner)) = none →
      ∃ x, ((nodes (startEnc span) ns).bind Enc.intoOutput : Except Err (Bool × List (Stmt ι E))) = .error x) ∧
    ∀ as, (stepsOf H ns).bind (block .ws (span.map inner)) = some as →
      ∃ ss, (nodes (startEnc span) ns).bind Enc.intoOutput = .ok (interpolated ns, ss) ∧
        (evs ss).map (evAct H) = as := by
  obtain ⟨h1, h2⟩ := h
  cases hp : stepsOf H ns with
  | none =>
    refine ⟨fun _ => ?_, by simp⟩
    obtain ⟨x, hx⟩ := h1 hp (startEnc span)
    exact ⟨x, by rw [hx]; rfl⟩
  | some qs =>
    obtain ⟨r, ps, rfl, hr, hn⟩ := h2 qs hp
    obtain ⟨b1, b2⟩ := block_spec (ι := ι) (E := E) span ps
    have key : (nodes (startEnc span) ns).bind Enc.intoOutput =
        ((encodeAll (startEnc span) ps).bind Enc.intoOutput).map (fun o => (o.1 || r, o.2)) := by
      rw [hn]
      cases encodeAll (startEnc (ι := ι) span) ps with
      | error x => rfl
      | ok e => exact intoOutput_need e r
    rw [key]
    simp only [Option.bind_some, block_acts, Option.map_eq_none_iff, Option.map_eq_some_iff]
    refine ⟨fun hb => ?_, ?_⟩
    · obtain ⟨x, hx⟩ := b1 hb
      exact ⟨x, by rw [show (encodeAll (startEnc span) ps).bind Enc.intoOutput = _ from hx]; rfl⟩
    · rintro as ⟨out, ho, rfl⟩
      obtain ⟨ss, hs, rfl⟩ := b2 out ho
      refine ⟨ss, ?_, rfl⟩
      rw [show (encodeAll (startEnc span) ps).bind Enc.intoOutput = _ from hs, ← hr, Bool.or_comm]
      rfl

/-- A node that is one piece. -/
theorem one_ok {n : Node E} {cur : Cur} {a : Ast ι E} {as : List (Step ι Env)} (r : Bool)
    (h1 : stepOf H n = some [(cur, as)]) (h2 : (astEvs a).map (evAct H) = as)
    (h3 : (r || astEval a) = interpolatedNode n)
    (h4 : ∀ e : Enc ι E, node e n = (e.need r).encode cur a) : NodeOk H n := by
  refine ⟨by rw [h1]; simp, ?_⟩
  intro qs hq
  rw [h1] at hq
  cases hq
  refine ⟨r, [(cur, a)], ?_, by simpa using h3, ?_⟩
  · rw [← h2]; rfl
  · intro e
    rw [h4, encode_need]
    show _ = (Except.bind (e.encode cur a) .ok).map _
    cases e.encode cur a <;> rfl

theorem written_strFlush (e : StrEnc ι E) (stop start : Pos) (to : Option Pos) (h : e.cursor = some stop) :
    (between stop start = none → e.flush start to = .error .lineBreak ∧ e.flushWhitespace start to = .error .lineBreak) ∧
    ∀ s, between stop start = some s →
      (∃ e', e.flush start to = .ok e' ∧ e'.cursor = to ∧ e'.buf = [] ∧ e'.hasEval = e.hasEval ∧
        evs e'.stream = e.written ++ s.map .char) ∧
      (∃ e', e.flushWhitespace start to = .ok e' ∧ e'.cursor = to ∧ e'.hasEval = e.hasEval ∧
        e'.written = e.written ++ s.map .char) := by
  unfold between StrEnc.flush StrEnc.flushWhitespace
  rw [h]
  dsimp only
  by_cases hl : stop.line = start.line
  · rw [if_pos hl, if_neg (by simpa using hl)]
    refine ⟨by simp, ?_⟩
    intro s hs
    simp only [Option.some.injEq] at hs
    subst hs
    refine ⟨?_, ⟨_, rfl, rfl, rfl, by simp [StrEnc.written]⟩⟩
    by_cases hb : e.buf ++ List.replicate (start.column - stop.column) ' ' = []
    · refine ⟨_, if_pos hb, rfl, hb, rfl, ?_⟩
      obtain ⟨b1, b2⟩ := List.append_eq_nil_iff.1 hb
      rw [b2]
      simp [StrEnc.written, b1]
    · refine ⟨_, if_neg hb, rfl, rfl, rfl, ?_⟩
      simp [StrEnc.written, evs, evOf]
  · rw [if_neg hl, if_pos (by simpa using hl)]
    exact ⟨fun _ => ⟨rfl, rfl⟩, by simp⟩

/-- A part that is read by `adv` and does `as`. -/
theorem part_ok {p : Part E} {ps : List (Part E)} {as : List (Step ι Env)} {b : Bool}
    (adv : StrEnc ι E → Except Err (StrEnc ι E)) (hp : partActs H p = some as)
    (hi : interpolatedPart p = b) (ih : PartsOk H ps)
    (hm : ∀ (e : StrEnc ι E) req, parts e req (p :: ps) = (adv e).bind (fun e => parts e (req || b) ps))
    (ha : ∀ (e : StrEnc ι E) stop, e.cursor = some stop →
      (between stop (placeOf p).start = none → ∃ x, adv e = .error x) ∧
      ∀ s, between stop (placeOf p).start = some s → ∃ e', adv e = .ok e' ∧
        e'.cursor = some (placeOf p).stop ∧ e'.hasEval = (e.hasEval || isEval p) ∧
        e'.written.map (evAct H) = e.written.map (evAct H) ++ (Step.text s ++ as)) :
    PartsOk H (p :: ps) := by
  intro e stop close req hc
  obtain ⟨a1, a2⟩ := ha e stop hc
  have hf : finishParts e req (p :: ps) close = (adv e).bind (fun e => finishParts e (req || b) ps close) := by
    unfold finishParts
    rw [hm]
    cases adv e <;> rfl
  rw [hf, strActs, hp]
  cases hb : between stop (placeOf p).start with
  | none =>
    obtain ⟨x, hx⟩ := a1 hb
    rw [hx]
    exact ⟨fun _ => ⟨x, rfl⟩, fun as h => by cases h⟩
  | some s =>
    obtain ⟨e', e1, e2, e3, e4⟩ := a2 s hb
    rw [e1]
    obtain ⟨i1, i2⟩ := ih e' _ close (req || b) e2
    cases hs : strActs H (placeOf p).stop close ps with
    | none =>
      exact ⟨fun _ => i1 hs, fun as h => by cases h⟩
    | some bs =>
      refine ⟨fun h => (by cases h), fun qs h => ?_⟩
      cases h
      obtain ⟨s', k1, k2, k3⟩ := i2 bs hs
      refine ⟨s', ?_, ?_, ?_⟩
      · rw [interpolatedParts, hi, ← Bool.or_assoc]; exact k1
      · rw [k2, e4]; simp
      · rw [k3, e3, List.any_cons, Bool.or_assoc]

/-- A part that is plain text. -/
theorem text_part {p : Part E} {ps : List (Part E)} (t : Str) (hp : partActs H p = some (Step.text t))
    (hi : interpolatedPart p = false) (he : isEval p = false) (ih : PartsOk H ps)
    (hm : ∀ (e : StrEnc ι E) req, parts e req (p :: ps) =
      (e.encodeStr t (placeOf p).start (placeOf p).stop).bind (fun e => parts e req ps)) :
    PartsOk H (p :: ps) := by
  refine part_ok H _ hp hi ih (fun e req => by rw [Bool.or_false]; exact hm e req) ?_
  intro e stop hc
  obtain ⟨w1, w2⟩ := written_strFlush e stop (placeOf p).start (some (placeOf p).stop) hc
  unfold StrEnc.encodeStr
  refine ⟨fun hb => ⟨.lineBreak, by rw [(w1 hb).2]; rfl⟩, fun s hb => ?_⟩
  obtain ⟨e', e1, e2, e3, e4⟩ := (w2 s hb).2
  rw [e1]
  refine ⟨_, rfl, e2, by rw [he, Bool.or_false]; exact e3, ?_⟩
  have : StrEnc.written { e' with buf := e'.buf ++ t } = e'.written ++ t.map .char := by
    simp [StrEnc.written]
  rw [this, e4]
  simp only [List.map_append, evs_chars, List.append_assoc]

/-- A part that flushes the text before it. -/
theorem flush_part {p : Part E} {ps : List (Part E)} {as : List (Step ι Env)} {b : Bool} (ss : List (Stmt ι E))
    (hp : partActs H p = some as) (hi : interpolatedPart p = b) (ih : PartsOk H ps)
    (hs : (evs ss).map (evAct H) = as)
    (hm : ∀ (e : StrEnc ι E) req, parts e req (p :: ps) =
      ((e.flush (placeOf p).start (some (placeOf p).stop)).map (fun e =>
        { e with stream := e.stream ++ ss, hasEval := e.hasEval || isEval p })).bind
      (fun e => parts e (req || b) ps)) :
    PartsOk H (p :: ps) := by
  refine part_ok H _ hp hi ih hm ?_
  intro e stop hc
  obtain ⟨w1, w2⟩ := written_strFlush e stop (placeOf p).start (some (placeOf p).stop) hc
  refine ⟨fun hb => ⟨.lineBreak, by rw [(w1 hb).1]; rfl⟩, fun s hb => ?_⟩
  obtain ⟨⟨e', e1, e2, e3, e4, e5⟩, -⟩ := w2 s hb
  rw [e1]
  refine ⟨_, rfl, e2, ?_, ?_⟩
  · show (e'.hasEval || _) = _
    rw [e4]
  · show (evs (e'.stream ++ ss) ++ e'.buf.map Ev.char).map (evAct H) = _
    rw [evs_append, e5, e3, List.map_nil, List.append_nil, List.map_append, List.map_append, evs_chars, hs,
      List.append_assoc]

theorem peek_join (as bs : List (Stmt ι E)) (l : List Env) :
    joinWith ((evs as).map (evAct H)) ((evs bs).map (evAct H)) l =
      marks (peekLoop (fun ρ => runBlock H ρ as) (fun ρ => runBlock H (leave H ρ as) bs) l) := by
  induction l with
  | nil => rfl
  | cons x l ih =>
    cases l with
    | nil =>
      simp [joinWith, peekLoop, perform_evs]
    | cons y l =>
      rw [joinWith, ih, ← List.map_append, ← evs_append, perform_evs, runBlock_append]
      rw [show peekLoop (fun ρ => runBlock H ρ as) (fun ρ => runBlock H (leave H ρ as) bs) (x :: y :: l) =
        runBlock H x as ++ runBlock H (leave H x as) bs ++ peekLoop (fun ρ => runBlock H ρ as)
          (fun ρ => runBlock H (leave H ρ as) bs) (y :: l) from rfl, marks_append, marks_append, marks_append]

theorem nested {β : Type} (x : Except Err (Enc ι E)) (f : Bool × List (Stmt ι E) → Except Err β) :
    (x.bind fun e => e.intoOutput.bind f) = (x.bind Enc.intoOutput).bind f := by
  cases x <;> rfl

/-- A node that is one piece, with a block. -/
theorem nested_ok {n : Node E} {cur : Cur} {span : Option Cur} {body : List (Node E)}
    (f : List (Step ι Env) → List (Step ι Env)) (a : List (Stmt ι E) → Ast ι E) (h : NodesOk H body)
    (h1 : stepOf H n = ((stepsOf H body).bind (block .ws (span.map inner))).bind (fun as => some [(cur, f as)]))
    (h2 : ∀ ss, (astEvs (a ss)).map (evAct H) = f ((evs ss).map (evAct H)))
    (h3 : ∀ ss, astEval (a ss) = false) (h4 : interpolated body = interpolatedNode n)
    (h5 : ∀ e : Enc ι E, node e n =
      ((nodes (startEnc span) body).bind Enc.intoOutput).bind (fun o => (e.need o.1).encode cur (a o.2))) :
    NodeOk H n := by
  obtain ⟨q1, q2⟩ := quote_ok H span h
  cases hb : (stepsOf H body).bind (block .ws (span.map inner)) with
  | none =>
    rw [hb] at h1
    refine ⟨fun _ e => ?_, fun qs hq => by rw [h1] at hq; cases hq⟩
    obtain ⟨x, hx⟩ := q1 hb
    exact ⟨x, by rw [h5, hx]; rfl⟩
  | some as =>
    rw [hb] at h1
    obtain ⟨ss, s1, rfl⟩ := q2 as hb
    refine one_ok H (a := a ss) (interpolated body) h1 (h2 ss) (by rw [h3, h4, Bool.or_false]) ?_
    intro e
    rw [h5, s1]
    rfl

/-- A node that is one piece, with two blocks. -/
theorem nested_ok₂ {n : Node E} {cur : Cur} {span span' : Option Cur} {body body' : List (Node E)}
    (f : List (Step ι Env) → List (Step ι Env) → List (Step ι Env))
    (a : List (Stmt ι E) → List (Stmt ι E) → Ast ι E) (h : NodesOk H body) (h' : NodesOk H body')
    (h1 : stepOf H n = ((stepsOf H body).bind (block .ws (span.map inner))).bind (fun as =>
      ((stepsOf H body').bind (block .ws (span'.map inner))).bind (fun bs => some [(cur, f as bs)])))
    (h2 : ∀ ss ss', (astEvs (a ss ss')).map (evAct H) = f ((evs ss).map (evAct H)) ((evs ss').map (evAct H)))
    (h3 : ∀ ss ss', astEval (a ss ss') = false) (h4 : (interpolated body || interpolated body') = interpolatedNode n)
    (h5 : ∀ e : Enc ι E, node e n =
      ((nodes (startEnc span) body).bind Enc.intoOutput).bind (fun o =>
        ((nodes (startEnc span') body').bind Enc.intoOutput).bind (fun o' =>
          (e.need (o.1 || o'.1)).encode cur (a o.2 o'.2)))) :
    NodeOk H n := by
  obtain ⟨q1, q2⟩ := quote_ok H span h
  obtain ⟨q1', q2'⟩ := quote_ok H span' h'
  cases hb : (stepsOf H body).bind (block .ws (span.map inner)) with
  | none =>
    rw [hb] at h1
    refine ⟨fun _ e => ?_, fun qs hq => by rw [h1] at hq; cases hq⟩
    obtain ⟨x, hx⟩ := q1 hb
    exact ⟨x, by rw [h5, hx]; rfl⟩
  | some as =>
    obtain ⟨ss, s1, rfl⟩ := q2 as hb
    cases hb' : (stepsOf H body').bind (block .ws (span'.map inner)) with
    | none =>
      rw [hb, hb'] at h1
      refine ⟨fun _ e => ?_, fun qs hq => by rw [h1] at hq; cases hq⟩
      obtain ⟨x, hx⟩ := q1' hb'
      exact ⟨x, by rw [h5, s1, hx]; rfl⟩
    | some bs =>
      obtain ⟨ss', s1', rfl⟩ := q2' bs hb'
      rw [hb, hb'] at h1
      refine one_ok H (a := a ss ss') (interpolated body || interpolated body') h1 (h2 ss ss')
        (by rw [h3, h4, Bool.or_false]) ?_
      intro e
      rw [h5, s1, s1']
      rfl

theorem bind_bind {α β : Type} (x : Option α) (f : α → Option β) {γ : Type} (g : β → Option γ) :
    (x.bind fun a => (f a).bind g) = (x.bind f).bind g := by
  cases x <;> rfl

mutual

theorem nodes_ok : (ns : List (Node E)) → NodesOk H ns
  | [] => by
    refine ⟨by simp [stepsOf], ?_⟩
    intro qs h
    cases h
    exact ⟨false, [], rfl, rfl, fun e => congrArg Except.ok (need_false e).symm⟩
  | n :: ns => by
    obtain ⟨a1, a2⟩ := node_ok n
    obtain ⟨b1, b2⟩ := nodes_ok ns
    unfold NodesOk
    rw [stepsOf]
    cases hn : stepOf H n with
    | none =>
      refine ⟨fun _ e => ?_, fun qs h => by cases h⟩
      obtain ⟨x, hx⟩ := a1 hn e
      exact ⟨x, by rw [nodes, hx]; rfl⟩
    | some q =>
      obtain ⟨r, ps, rfl, hr, hq⟩ := a2 q hn
      cases hs : stepsOf H ns with
      | none =>
        refine ⟨fun _ e => ?_, fun qs h => by cases h⟩
        rw [nodes, hq]
        cases encodeAll e ps with
        | error x => exact ⟨x, rfl⟩
        | ok e1 => exact b1 hs (e1.need r)
      | some qs =>
        obtain ⟨r', ps', rfl, hr', hq'⟩ := b2 qs hs
        refine ⟨fun h => (by cases h), fun qs h => ?_⟩
        cases h
        refine ⟨r || r', ps ++ ps', ?_, ?_, ?_⟩
        · simp [actsOf, pieceEvs]
        · rw [interpolated, ← hr, ← hr', List.any_append]
          cases r <;> cases r' <;> simp
        · intro e
          rw [nodes, hq, encodeAll_append]
          cases encodeAll e ps with
          | error x => rfl
          | ok e1 =>
            refine (hq' (e1.need r)).trans ?_
            rw [encodeAll_need]
            show _ = (encodeAll e1 ps').map _
            cases encodeAll e1 ps' with
            | error x => rfl
            | ok e2 => exact congrArg Except.ok (need_need e2 r r')

theorem node_ok : (n : Node E) → NodeOk H n
  | .tree cur text => one_ok H (a := .tree text) false rfl (evs_chars H text) rfl
      (fun e => by rw [need_false]; rfl)
  | .escape cur => one_ok H (a := .tree ['$']) false rfl (evs_chars H _) rfl
      (fun e => by rw [need_false]; rfl)
  | .str cur paren ps => by
    obtain ⟨p1, p2⟩ := parts_ok ps { cursor := some (inner paren).1 } (inner paren).1 (inner paren).2 false rfl
    have hn : ∀ e : Enc ι E, node e (.str cur paren ps) =
        (finishParts { cursor := some (inner paren).1 } false ps (inner paren).2).bind
          (fun o => (e.need o.2).encode cur (.string o.1.hasEval o.1.stream)) := by
      intro e
      rw [node]
      unfold finishParts
      show (parts { cursor := some (inner paren).1 } false ps).bind _ = _
      cases parts (ι := ι) { cursor := some (inner paren).1 } false ps with
      | error x => rfl
      | ok o =>
        obtain ⟨s, r⟩ := o
        show (s.flush (inner paren).2 none).bind _ = ((s.flush (inner paren).2 none).bind _).bind _
        cases s.flush (inner paren).2 none <;> rfl
    cases hs : strActs H (inner paren).1 (inner paren).2 ps with
    | none =>
      have h1 : stepOf H (.str cur paren ps) = none := by rw [stepOf, hs]; rfl
      refine ⟨fun _ e => ?_, fun qs hq => by rw [h1] at hq; cases hq⟩
      obtain ⟨x, hx⟩ := p1 hs
      exact ⟨x, by rw [hn, hx]; rfl⟩
    | some as =>
      obtain ⟨s, s1, s2, s3⟩ := p2 as hs
      have s3 : s.hasEval = ps.any isEval := by rw [s3]; simp
      refine one_ok H (a := .string s.hasEval s.stream) (interpolatedParts ps)
        (as := Step.call (.append (.openQuote (ps.any isEval))) :: as ++ [Step.call (.append .closeQuote)])
        (by rw [stepOf, hs]; rfl) ?_ ?_ ?_
      · rw [astEvs, List.map_append, List.map_cons, s2, s3]
        rfl
      · rw [interpolatedNode, astEval, s3, Bool.or_comm]
      · intro e
        rw [hn, s1, Bool.false_or]
        rfl
  | .control cur k => by
    cases k with
    | space => exact one_ok H (a := .control .space) false rfl rfl rfl (fun e => by rw [need_false]; rfl)
    | push => exact one_ok H (a := .control .push) false rfl rfl rfl (fun e => by rw [need_false]; rfl)
    | line => exact one_ok H (a := .control .line) false rfl rfl rfl (fun e => by rw [need_false]; rfl)
  | .quoted cur s => one_ok H (a := .quoted s) false rfl
      (by simp only [astEvs, List.map_cons, List.map_append, List.cons_append, evs_chars]; rfl) rfl
      (fun e => by rw [need_false]; rfl)
  | .literal cur s => one_ok H (a := .literal s) false rfl (evs_chars H s) rfl
      (fun e => by rw [need_false]; rfl)
  | .eval cur x => one_ok H (a := .eval x) false rfl rfl rfl (fun e => by rw [need_false]; rfl)
  | .scope cur bound content => by
    cases bound with
    | true => exact one_ok H (a := .scope true content) false rfl rfl rfl (fun e => by rw [need_false]; rfl)
    | false => exact one_ok H (a := .scope false content) false rfl rfl rfl (fun e => by rw [need_false]; rfl)
  | .loop cur pat iter body => by
    refine nested_ok H (cur := cur) (span := none) (fun as => [fun ρ => (ρ, (H.iter ρ pat iter).flatMap (fun ρ' => perform ρ' as))])
      (fun ss => .loop pat iter none ss) (nodes_ok body) ?_ ?_ (fun _ => rfl) rfl ?_
    · rw [← bind_bind]; rfl
    · intro ss
      show [evAct H (.stmt (.forIn pat iter ss))] = _
      refine congrArg (fun f => [f]) (funext fun ρ => ?_)
      simp only [evAct, runStmt, marks_flatMap, perform_evs]
    · intro e; rw [← nested]; rfl
  | .joined cur pat iter paren sep body => by
    refine nested_ok₂ H (cur := cur) (span := some paren) (span' := none)
      (fun ss as => [fun ρ => (ρ, joinWith as ss (H.iter ρ pat iter))])
      (fun bs as => .loop pat iter (some bs) as) (nodes_ok sep) (nodes_ok body) ?_ ?_ (fun _ _ => rfl) rfl ?_
    · rw [← bind_bind]
      refine congrArg (Option.bind _) (funext fun x => congrArg (Option.bind _) (funext fun y => ?_))
      rw [← bind_bind]; rfl
    · intro bs as
      show [evAct H (.stmt (.joinIn pat iter bs as))] = _
      refine congrArg (fun f => [f]) (funext fun ρ => ?_)
      simp only [evAct, runStmt, peek_join]
    · intro e
      rw [← nested]
      refine congrArg (Except.bind _) (funext fun x => congrArg (Except.bind _) (funext fun y => ?_))
      rw [← nested]; rfl
  | .ifThen cur c t => by
    refine nested_ok H (cur := cur) (span := none) (fun as => [fun ρ => (ρ, (H.test ρ c).elim [] (fun ρ' => perform ρ' as))])
      (fun ss => .condition c ss none) (nodes_ok t) ?_ ?_ (fun _ => rfl) rfl ?_
    · rw [← bind_bind]; rfl
    · intro ss
      show [evAct H (.stmt (.ifThen c ss))] = _
      refine congrArg (fun f => [f]) (funext fun ρ => ?_)
      simp only [evAct, runStmt, perform_evs]
      cases H.test ρ c <;> rfl
    · intro e; rw [← nested]; rfl
  | .ifElse cur c t f => by
    refine nested_ok₂ H (cur := cur) (span := none) (span' := none)
      (fun as bs => [fun ρ => (ρ, (H.test ρ c).elim (perform ρ bs) (fun ρ' => perform ρ' as))])
      (fun as bs => .condition c as (some bs)) (nodes_ok t) (nodes_ok f) ?_ ?_ (fun _ _ => rfl) rfl ?_
    · rw [← bind_bind]
      refine congrArg (Option.bind _) (funext fun x => congrArg (Option.bind _) (funext fun y => ?_))
      rw [← bind_bind]; rfl
    · intro as bs
      show [evAct H (.stmt (.ifElse c as bs))] = _
      refine congrArg (fun f => [f]) (funext fun ρ => ?_)
      simp only [evAct, runStmt, perform_evs]
      cases H.test ρ c <;> rfl
    · intro e
      rw [← nested]
      refine congrArg (Except.bind _) (funext fun x => congrArg (Except.bind _) (funext fun y => ?_))
      rw [← nested]; rfl
  | .select cur x as => by
    obtain ⟨a1, a2⟩ := arms_ok as
    cases ha : armActs H as with
    | none =>
      have h1 : stepOf H (.select cur x as) = none := by rw [stepOf, ha]; rfl
      refine ⟨fun _ e => ?_, fun qs hq => by rw [h1] at hq; cases hq⟩
      obtain ⟨y, hy⟩ := a1 ha
      exact ⟨y, by rw [node, hy]; rfl⟩
    | some bs =>
      obtain ⟨out, o1, o2⟩ := a2 bs ha
      refine one_ok H (a := .select x out) (interpolatedArms as)
        (as := [fun ρ => (ρ, chosen H ρ x bs)]) (by rw [stepOf, ha]; rfl) ?_ (Bool.or_false _) ?_
      · show [evAct H (.stmt (.select x out))] = _
        refine congrArg (fun f => [f]) (funext fun ρ => ?_)
        simp only [evAct, runStmt, o2]
      · intro e
        rw [node, o1]
        rfl
  | .bind cur pat x => one_ok H (a := .bind pat x) false rfl rfl rfl (fun e => by rw [need_false]; rfl)
  | .group cur d content => by
    obtain ⟨a1, a2⟩ := nodes_ok content
    have hg : stepOf H (.group cur d content) = (stepsOf H content).bind (fun ps =>
        some ((cur.firstCharacter, Step.text [d.encodeOpen]) :: ps ++
          [(cur.lastCharacter, Step.text [d.encodeClose])])) := by
      cases d <;> rfl
    cases hc : stepsOf H content with
    | none =>
      have h1 : stepOf H (.group cur d content) = none := by rw [hg, hc]; rfl
      refine ⟨fun _ e => ?_, fun qs hq => by rw [h1] at hq; cases hq⟩
      rw [node]
      cases e.encode cur.firstCharacter (.delimiterOpen d) with
      | error x => exact ⟨x, rfl⟩
      | ok e1 =>
        obtain ⟨x, hx⟩ := a1 hc e1
        exact ⟨x, by show (nodes e1 content).bind _ = _; rw [hx]; rfl⟩
    | some q =>
      obtain ⟨r, ps, rfl, hr, hq⟩ := a2 q hc
      refine ⟨fun h => (by rw [hg, hc] at h; cases h), fun qs hqs => ?_⟩
      rw [hg, hc] at hqs
      cases hqs
      refine ⟨r, (cur.firstCharacter, .delimiterOpen d) :: ps ++ [(cur.lastCharacter, .delimiterClose d)], ?_, ?_, ?_⟩
      · simp only [actsOf, pieceEvs, List.map_cons, List.map_append, List.cons_append, List.map_nil]
        cases d <;> rfl
      · rw [interpolatedNode, ← hr]; simp [astEval]
      · intro e
        rw [node, List.cons_append, encodeAll]
        cases e.encode cur.firstCharacter (.delimiterOpen d) with
        | error x => rfl
        | ok e1 =>
          show (nodes e1 content).bind _ = (encodeAll e1 (ps ++ _)).map _
          rw [hq, encodeAll_append]
          cases encodeAll e1 ps with
          | error x => rfl
          | ok e2 =>
            show (e2.need r).encode _ _ = ((e2.encode cur.lastCharacter (.delimiterClose d)).bind .ok).map _
            rw [encode_need]
            cases e2.encode cur.lastCharacter (.delimiterClose d) <;> rfl

theorem arms_ok : (as : List (Arm E)) → ArmsOk H as
  | [] => ⟨by simp [armActs], fun bs h => by cases h; exact ⟨[], rfl, fun _ _ => rfl⟩⟩
  | .mk pat guard paren body :: as => by
    obtain ⟨q1, q2⟩ := quote_ok H paren (nodes_ok body)
    obtain ⟨a1, a2⟩ := arms_ok as
    have hm : arms (ι := ι) (.mk pat guard paren body :: as) =
        ((nodes (startEnc paren) body).bind Enc.intoOutput).bind (fun o => (arms as).bind (fun o' =>
          .ok (o.1 || o'.1, (pat, guard, o.2) :: o'.2))) := by
      rw [← nested]; rfl
    have hs : armActs H (.mk pat guard paren body :: as) =
        ((stepsOf H body).bind (block .ws (paren.map inner))).bind (fun a => (armActs H as).bind (fun b =>
          some ((pat, guard, a) :: b))) := by
      rw [← bind_bind]; rfl
    unfold ArmsOk
    rw [hm, hs]
    cases hb : (stepsOf H body).bind (block .ws (paren.map inner)) with
    | none =>
      obtain ⟨x, hx⟩ := q1 hb
      exact ⟨fun _ => ⟨x, by rw [hx]; rfl⟩, fun bs h => by cases h⟩
    | some a =>
      obtain ⟨ss, s1, rfl⟩ := q2 a hb
      rw [s1]
      cases ha : armActs H as with
      | none =>
        obtain ⟨x, hx⟩ := a1 ha
        exact ⟨fun _ => ⟨x, by rw [hx]; rfl⟩, fun bs h => by cases h⟩
      | some bs =>
        obtain ⟨out, o1, o2⟩ := a2 bs ha
        refine ⟨fun h => (by cases h), fun bs' h => ?_⟩
        cases h
        refine ⟨(pat, guard, ss) :: out, by rw [o1]; rfl, fun ρ e => ?_⟩
        rw [chosen, runArms]
        cases H.pick ρ e pat guard with
        | none => exact o2 ρ e
        | some ρ' => exact perform_evs H ss ρ'

theorem parts_ok : (ps : List (Part E)) → PartsOk H ps
  | [] => by
    intro e stop close req hc
    obtain ⟨w1, w2⟩ := written_strFlush e stop close none hc
    rw [strActs]
    refine ⟨fun hb => ?_, fun as hb => ?_⟩
    · rw [Option.map_eq_none_iff] at hb
      exact ⟨.lineBreak, by unfold finishParts; rw [parts]; show (e.flush close none).bind _ = _; rw [(w1 hb).1]; rfl⟩
    · rw [Option.map_eq_some_iff] at hb
      obtain ⟨s, hb, rfl⟩ := hb
      obtain ⟨⟨e', e1, e2, e3, e4, e5⟩, -⟩ := w2 s hb
      refine ⟨e', ?_, ?_, ?_⟩
      · unfold finishParts; rw [parts]; show (e.flush close none).bind _ = _; rw [e1]
        show Except.ok (e', req) = _
        rw [interpolatedParts, Bool.or_false]
      · rw [e5, List.map_append, evs_chars]
      · rw [e4]; simp
  | .dollar cur :: ps => text_part H ['$'] rfl rfl rfl (parts_ok ps) (fun e req => rfl)
  | .constant cur s :: ps => text_part H s rfl rfl rfl (parts_ok ps) (fun e req => rfl)
  | .tt cur text :: ps => text_part H text rfl rfl rfl (parts_ok ps) (fun e req => rfl)
  | .raw cur x :: ps => by
    refine flush_part H [.value x] rfl rfl (parts_ok ps) rfl ?_
    intro e req
    rw [parts]
    show ((e.flush cur.start (some cur.stop)).bind _).bind _ = ((e.flush cur.start (some cur.stop)).map _).bind _
    cases e.flush cur.start (some cur.stop) with
    | error x => rfl
    | ok e1 =>
      show parts _ req ps = parts { e1 with stream := _, hasEval := e1.hasEval || false } (req || false) ps
      rw [Bool.or_false, Bool.or_false]
  | .ident cur name :: ps => by
    refine flush_part H [.call (.append .openEval), .call (.append (.literal (.static name))),
      .call (.append .closeEval)] rfl rfl (parts_ok ps) ?_ ?_
    · simp only [evs, evOf, List.flatMap_cons, List.flatMap_nil, List.map_append, List.map_cons, evs_chars]; rfl
    · intro e req
      rw [parts]
      show ((e.flush cur.start (some cur.stop)).bind _).bind _ = ((e.flush cur.start (some cur.stop)).map _).bind _
      cases e.flush cur.start (some cur.stop) with
      | error x => rfl
      | ok e1 =>
        show parts { e1 with stream := _, hasEval := true } req ps =
          parts { e1 with stream := _, hasEval := e1.hasEval || true } (req || false) ps
        rw [Bool.or_true, Bool.or_false, List.append_assoc]
        rfl
  | .stream cur span content :: ps => by
    obtain ⟨q1, q2⟩ := quote_ok H (some span) (nodes_ok content)
    have hm : ∀ (e : StrEnc ι E) req, parts e req (.stream cur span content :: ps) =
        ((nodes (startEnc (some span)) content).bind Enc.intoOutput).bind (fun o =>
          (e.evalStream o.2 cur.start cur.stop).bind (fun e => parts e (req || o.1) ps)) := by
      intro e req
      rw [← nested]; rfl
    have hp : partActs H (.stream cur span content) =
        ((stepsOf H content).bind (block .ws ((some span).map inner))).bind (fun as =>
          some (Step.call (.append .openEval) :: as ++ [Step.call (.append .closeEval)])) := by
      rw [← bind_bind]; rfl
    cases hb : (stepsOf H content).bind (block .ws ((some span).map inner)) with
    | none =>
      rw [hb] at hp
      intro e stop close req hc
      obtain ⟨x, hx⟩ := q1 hb
      have h1 : strActs H stop close (.stream cur span content :: ps) = none := by
        rw [strActs, hp]
        cases between stop (placeOf (Part.stream cur span content)).start <;> rfl
      refine ⟨fun _ => ⟨x, ?_⟩, fun as h => by rw [h1] at h; cases h⟩
      unfold finishParts
      rw [hm, hx]
      rfl
    | some as =>
      rw [hb] at hp
      obtain ⟨ss, s1, rfl⟩ := q2 as hb
      refine flush_part H (.call (.append .openEval) :: ss ++ [.call (.append .closeEval)]) hp rfl (parts_ok ps) ?_ ?_
      · simp only [evs, evOf, List.cons_append, List.flatMap_cons, List.flatMap_append, List.flatMap_nil,
          List.map_append, List.map_cons, List.append_nil]; rfl
      · intro e req
        rw [hm, s1]
        show ((e.flush cur.start (some cur.stop)).bind _).bind _ = ((e.flush cur.start (some cur.stop)).map _).bind _
        cases e.flush cur.start (some cur.stop) with
        | error x => rfl
        | ok e1 =>
          show parts { e1 with stream := _, hasEval := true } _ ps =
            parts { e1 with stream := _, hasEval := e1.hasEval || true } _ ps
          rw [Bool.or_true]
          simp only [List.append_assoc, List.cons_append]
          rfl

end

end Acts

end Genco.Macro
