import Verif.Proofs.Register
import Verif.Proofs.Lines
import Verif.Spec.Split

/-!
# Splitting texts does not change the output
-/

set_option autoImplicit false

namespace Genco

open Spec

variable {ι σ : Type}

/-! ## Layout of exploded texts -/

/-- Every text as texts of one character. -/
def explode1 : Act → List Act
  | .text s => s.map fun c => .text [c]
  | a => [a]

/-- Every text as texts of one character. -/
def explode (acts : List Act) : List Act := acts.flatMap explode1

theorem explode_append (a b : List Act) : explode (a ++ b) = explode a ++ explode b :=
  List.flatMap_append

theorem explode_texts (l : List Str) : explode (texts l) = l.flatten.map fun c => .text [c] := by
  induction l with
  | nil => rfl
  | cons s l ih =>
    show explode1 (.text s) ++ explode (texts l) = _
    rw [ih]
    simp [explode1]

theorem flushed_flushed (st : LSt) : st.flushed.flushed = st.flushed := rfl

theorem actsSt_chars (st : LSt) (s : Str) :
    actsSt st (s.map fun c => .text [c]) = actSt st (.text s) := by
  induction s generalizing st with
  | nil => rfl
  | cons c s ih =>
    rw [List.map_cons, actsSt, ih]
    cases s <;> simp [actSt, flushed_flushed]

theorem flushEv_flushed (cfg : Config) (st : LSt) : flushEv cfg st.flushed = [] := rfl

theorem evText_chars (cfg : Config) (st : LSt) (s : Str) :
    evText cfg.newline (actsEv cfg st (s.map fun c => .text [c])) =
      evText cfg.newline (actEv cfg st (.text s)) := by
  induction s generalizing st with
  | nil => rfl
  | cons c s ih =>
    rw [List.map_cons, actsEv, evText_append, ih]
    cases s with
    | nil => simp [actEv, evText]
    | cons d s =>
      simp only [actEv, actSt, ne_eq, reduceCtorEq, not_false_eq_true, if_true, evText_append,
        flushEv_flushed, evText, List.nil_append, List.append_nil, List.append_assoc]
      rfl

theorem actsSt_explode (st : LSt) (acts : List Act) : actsSt st (explode acts) = actsSt st acts := by
  induction acts generalizing st with
  | nil => rfl
  | cons a r ih =>
    show actsSt st (explode1 a ++ explode r) = _
    rw [actsSt_append, ih, actsSt]
    cases a <;> first | (rw [explode1, actsSt_chars]) | rfl

theorem evText_explode (cfg : Config) (st : LSt) (acts : List Act) :
    evText cfg.newline (actsEv cfg st (explode acts)) = evText cfg.newline (actsEv cfg st acts) := by
  induction acts generalizing st with
  | nil => rfl
  | cons a r ih =>
    show evText _ (actsEv cfg st (explode1 a ++ explode r)) = _
    rw [actsEv_append, evText_append, ih, actsEv, evText_append]
    cases a <;> first | (rw [explode1, actsSt_chars, evText_chars]) | rfl

theorem renderActs_explode {cfg : Config} {a b : List Act} (h : explode a = explode b) :
    renderActs cfg a = renderActs cfg b := by
  unfold renderActs
  rw [← evText_explode, h, evText_explode]

theorem vecActs_append (cfg : Config) (st : LSt) (v : VecState) (a b : List Act) :
    vecActs cfg st v (a ++ b) = vecActs cfg (actsSt st a) (vecActs cfg st v a) b := by
  induction a generalizing st v with
  | nil => rfl
  | cons x a ih => rw [List.cons_append, vecActs, ih]; rfl

theorem flushPad_flushed (cfg : Config) (st : LSt) : flushPad cfg st.flushed = [] := by
  simp [flushPad, LSt.flushed]

theorem vecActs_flushed (cfg : Config) (st : LSt) (v : VecState) (s : Str) :
    vecActs cfg st.flushed v (s.map fun c => .text [c]) =
      { v with lineBuffer := v.lineBuffer ++ s } := by
  induction s generalizing v with
  | nil => simp [vecActs]
  | cons c s ih =>
    rw [List.map_cons, vecActs,
      show actSt st.flushed (.text [c]) = st.flushed by simp [actSt, flushed_flushed], ih]
    have : st.flushed.line = .none := rfl
    simp [vecAct, this, flushPad_flushed]

theorem vecActs_chars (cfg : Config) (st : LSt) (v : VecState) (s : Str) :
    vecActs cfg st v (s.map fun c => .text [c]) = vecAct cfg st v (.text s) := by
  cases s with
  | nil => simp [vecActs, vecAct]
  | cons c s =>
    rw [List.map_cons, vecActs, show actSt st (.text [c]) = st.flushed by simp [actSt],
      vecActs_flushed]
    simp only [vecAct, reduceCtorEq, if_false]
    cases st.line <;> simp

theorem vecActs_explode (cfg : Config) (st : LSt) (v : VecState) (acts : List Act) :
    vecActs cfg st v (explode acts) = vecActs cfg st v acts := by
  induction acts generalizing st v with
  | nil => rfl
  | cons a r ih =>
    show vecActs cfg st v (explode1 a ++ explode r) = _
    rw [vecActs_append, ih, vecActs]
    cases a <;> first | (rw [explode1, actsSt_chars, vecActs_chars]) | rfl

/-! ## The item stage -/

/-- Streams related by splitting, or both absent. -/
def RestRel (D : Prop) : Option (List (Item ι)) → Option (List (Item ι)) → Prop
  | some x, some y => SplitOf D false x y
  | none, none => True
  | _, _ => False

/-- Results with the same text. -/
def ResRel (D : Prop) (a b : List Act × Option (List (Item ι))) : Prop :=
  explode a.1 = explode b.1 ∧ RestRel D a.2 b.2

theorem splitOf_weaken {D : Prop} {b : Bool} {x y : List (Item ι)} (h : SplitOf D b x y) :
    SplitOf D false x y := by
  cases h with
  | nil => exact .nil
  | same i h => exact .same i h
  | split s l t _ ht h => exact .split s l t (by simp) ht h

theorem ResRel.pre {D : Prop} {p q : List Act} {a b : List Act × Option (List (Item ι))}
    (hp : explode p = explode q) (h : ResRel D a b) : ResRel D (Genco.pre p a) (Genco.pre q b) := by
  refine ⟨?_, h.2⟩
  simp only [Genco.pre, explode_append, hp, h.1]

theorem ResRel.none {D : Prop} : ResRel D (ι := ι) ([], none) ([], none) := ⟨rfl, trivial⟩

/-- Actions of a literal. -/
def litActs (L : Lang ι) (q : Bool) (s : Str) : List Act :=
  if q then texts (L.writeQuoted s) else [.text s]

theorem res_lits (L : Lang ι) (cfg : Config) (e : Bool) (head : Frame) (st : List Frame)
    (l : List ItemStr) (x : List (Item ι)) :
    res L cfg e (head :: st) (l.map .literal ++ x) =
      pre (l.flatMap fun s => litActs L head.inQuote s.text) (res L cfg e (head :: st) x) := by
  induction l with
  | nil => rfl
  | cons s l ih =>
    rw [List.map_cons, List.cons_append, res_cons]
    simp only
    rw [ih, pre_pre]
    rfl

/-- Escaping is text by text. -/
def HomQuote (L : Lang ι) : Prop :=
  ∀ a b, (L.writeQuoted (a ++ b)).flatten = (L.writeQuoted a).flatten ++ (L.writeQuoted b).flatten

theorem HomQuote.nil {L : Lang ι} (h : HomQuote L) : (L.writeQuoted []).flatten = [] := by
  have := congrArg List.length (h [] [])
  simp only [List.append_nil, List.length_append] at this
  exact List.length_eq_zero_iff.1 (by omega)

theorem explode_lit (L : Lang ι) (q : Bool) (s : Str) :
    explode (litActs L q s) =
      (if q then (L.writeQuoted s).flatten else s).map fun c => .text [c] := by
  unfold litActs
  cases q
  · simp only [Bool.false_eq_true, if_false]
    show explode1 (.text s) ++ [] = _
    simp [explode1]
  · simp only [if_true]
    exact explode_texts _

theorem explode_lits (L : Lang ι) (h : HomQuote L) (q : Bool) (l : List ItemStr) :
    explode (l.flatMap fun s => litActs L q s.text) =
      explode (litActs L q (l.map ItemStr.text).flatten) := by
  induction l with
  | nil =>
    rw [explode_lit]
    cases q
    · rfl
    · simp [h.nil, explode]
  | cons s l ih =>
    rw [List.flatMap_cons, explode_append, ih, explode_lit, explode_lit, explode_lit]
    cases q
    · simp
    · simp [h s.text (l.map ItemStr.text).flatten]

/-- A stream starting with a literal and the end of the evaluation. -/
def evalSingle : List (Item ι) → Option (ItemStr × List (Item ι))
  | .literal s :: .closeEval :: r => some (s, r)
  | _ => none

theorem res_openEval' (L : Lang ι) (cfg : Config) (e : Bool) (head : Frame) (stack' : List Frame)
    (rest : List (Item ι)) (hq : head.inQuote = true) :
    res L cfg e (head :: stack') (.openEval :: rest) =
      match evalSingle rest with
      | some (s, r) => pre (texts (L.evalLiteral s.text)) (res L cfg e (head :: stack') r)
      | none => pre (texts L.startEval) (res L cfg e (⟨false, false, true⟩ :: head :: stack') rest) := by
  rw [res_cons]
  simp only [hq, if_true]
  rcases rest with _ | ⟨i, _ | ⟨j, r⟩⟩
  · rfl
  · cases i <;> rfl
  · cases i <;> cases j <;> rfl

/-- Without the default treatment nothing is split right after the start of an
evaluation. -/
theorem evalSingle_split {D : Prop} (hD : ¬ D) {x y : List (Item ι)} (h : SplitOf D true x y) :
    (∃ s r r', evalSingle x = some (s, r) ∧ evalSingle y = some (s, r') ∧ SplitOf D false r r' ∧
      r.length < x.length) ∨ (evalSingle x = none ∧ evalSingle y = none) := by
  cases h with
  | nil => exact .inr ⟨rfl, rfl⟩
  | split s l t hb => exact absurd (hb rfl) hD
  | @same _ x y i h =>
    cases i with
    | literal s =>
      cases h with
      | nil => exact .inr ⟨rfl, rfl⟩
      | split => exact .inr ⟨rfl, rfl⟩
      | @same _ x y j h =>
        cases j with
        | closeEval => exact .inl ⟨s, x, y, rfl, rfl, h, by simp; omega⟩
        | _ => exact .inr ⟨rfl, rfl⟩
    | _ => exact .inr ⟨rfl, rfl⟩

theorem res_split (L : Lang ι) (hQ : HomQuote L) (D : Prop)
    (hD : D → ∀ s, L.evalLiteral s = L.startEval ++ [s] ++ L.endEval)
    (cfg : Config) (n : Nat) (x y : List (Item ι)) (hn : x.length ≤ n) (b : Bool)
    (h : SplitOf D b x y) (e : Bool) (st : List Frame) (hb : bottomOk st = true) :
    ResRel D (res L cfg e st x) (res L cfg e st y) := by
  induction n generalizing x y b e st with
  | zero =>
    have : x = [] := by simpa using hn
    subst this
    cases h
    rw [res_nil]
    exact ⟨rfl, .nil⟩
  | succ n ih =>
    cases st with
    | nil => simp [bottomOk] at hb
    | cons head st =>
    cases h with
    | nil => rw [res_nil]; exact ⟨rfl, .nil⟩
    | @split _ x y s l t hD' ht h =>
      have e1 : Item.literal s :: l.map Item.literal ++ x = (s :: l).map Item.literal ++ x := rfl
      have e2 : Item.literal t :: y = [t].map Item.literal ++ y := rfl
      rw [e1] at hn ⊢
      rw [e2, res_lits, res_lits]
      refine .pre ?_ (ih x y (by simp at hn; omega) _ h e _ hb)
      rw [explode_lits L hQ, explode_lits L hQ]
      simp [ht]
    | @same _ x y i h =>
      simp only [List.length_cons] at hn
      have step : ∀ e st, bottomOk st = true → ResRel D (res L cfg e st x) (res L cfg e st y) :=
        fun e st hb => ih x y (by omega) _ h e st hb
      cases i with
      | register p i => rw [res_cons, res_cons]; exact step _ _ hb
      | openEval =>
        cases hq : head.inQuote with
        | false =>
          rw [res_cons, res_cons]
          simp only [hq, Bool.false_eq_true, if_false]
          exact .none
        | true =>
          by_cases hd : D
          · rw [res_openEval L (hD hd) _ _ _ _ _ hq, res_openEval L (hD hd) _ _ _ _ _ hq]
            exact .pre rfl (step _ _ (bottomOk_push hb))
          · rw [res_openEval' _ _ _ _ _ _ hq, res_openEval' _ _ _ _ _ _ hq]
            rcases evalSingle_split hd h with ⟨s, r, r', h1, h2, h3, h4⟩ | ⟨h1, h2⟩
            · rw [h1, h2]
              exact .pre rfl (ih r r' (by omega) _ h3 e _ hb)
            · rw [h1, h2]
              exact .pre rfl (step _ _ (bottomOk_push hb))
      | closeEval =>
        rw [res_cons, res_cons]
        simp only
        split
        · rename_i he
          exact .pre rfl (step _ _ (bottomOk_cons hb he))
        · exact .none
      | closeQuote =>
        rw [res_cons, res_cons]
        simp only
        split
        · exact ⟨rfl, splitOf_weaken h⟩
        · split
          · exact .pre rfl (step _ ({ head with inQuote := false, hasEval := false } :: st)
              (bottomOk_set hb rfl))
          · exact .none
      | openQuote ev =>
        rw [res_cons, res_cons]
        simp only
        split
        · exact .pre rfl (step _ ({ head with hasEval := ev, inQuote := true } :: st)
            (bottomOk_set hb rfl))
        · split
          · obtain ⟨h1, h2⟩ := step true [Frame.default] rfl
            cases hx : (res L cfg true [Frame.default] x).2 with
            | none =>
              rw [hx] at h2
              cases hy : (res L cfg true [Frame.default] y).2 with
              | none => exact .none
              | some y' => rw [hy] at h2; exact h2.elim
            | some x' =>
              rw [hx] at h2
              cases hy : (res L cfg true [Frame.default] y).2 with
              | none => rw [hy] at h2; exact h2.elim
              | some y' =>
                rw [hy] at h2
                have hl := resolve_length _ _ _ _ _ _ _ hx
                have hr : renderActs cfg (texts (L.openQuote false) ++
                    (res L cfg true [Frame.default] x).1 ++ texts (L.closeQuote false)) =
                    renderActs cfg (texts (L.openQuote false) ++
                    (res L cfg true [Frame.default] y).1 ++ texts (L.closeQuote false)) :=
                  renderActs_explode (by simp only [explode_append, h1])
                simp only [hr]
                exact .pre rfl (ih x' y' (by omega) _ h2 e _ hb)
          · exact .none
      | indentation k =>
        rw [res_cons, res_cons]
        simp only
        split
        · exact step _ _ hb
        · exact .pre rfl (step _ _ hb)
      | _ =>
        rw [res_cons, res_cons]
        exact .pre rfl (step _ _ hb)

theorem resolveItems_split (L : Lang ι) (hQ : HomQuote L) (D : Prop)
    (hD : D → ∀ s, L.evalLiteral s = L.startEval ++ [s] ++ L.endEval)
    (cfg : Config) (x y : List (Item ι)) (h : SplitOf D false x y) :
    explode (resolveItems L cfg x).1 = explode (resolveItems L cfg y).1 ∧
      (resolveItems L cfg x).2 = (resolveItems L cfg y).2 := by
  obtain ⟨h1, h2⟩ := res_split L hQ D hD cfg x.length x y (Nat.le_refl _) false h false
    [Frame.default] rfl
  unfold res at h1 h2
  refine ⟨h1, ?_⟩
  simp only [resolveItems]
  cases hx : (resolve L cfg x.length false [Frame.default] x).2 with
  | none =>
    rw [hx] at h2
    cases hy : (resolve L cfg y.length false [Frame.default] y).2 with
    | none => rfl
    | some y' => rw [hy] at h2; exact h2.elim
  | some x' =>
    rw [hx] at h2
    cases hy : (resolve L cfg y.length false [Frame.default] y).2 with
    | none => rw [hy] at h2; exact h2.elim
    | some y' => rfl

end Genco
