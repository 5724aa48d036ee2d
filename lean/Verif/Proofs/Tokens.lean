import Verif.Model.Tokens
import Verif.Spec.Tokens

/-!
# Lemmas about token streams
-/

set_option autoImplicit false

namespace Genco

open Spec

variable {ι : Type}

namespace Tokens

@[simp] theorem isWs_push : isWs (.push : Item ι) = true := rfl
@[simp] theorem isWs_line : isWs (.line : Item ι) = true := rfl
@[simp] theorem isWs_space : isWs (.space : Item ι) = true := rfl
@[simp] theorem isWs_indentation (n) : isWs (.indentation n : Item ι) = true := rfl
@[simp] theorem isWs_literal (s) : isWs (.literal s : Item ι) = false := rfl
@[simp] theorem isWs_lang (p i) : isWs (.lang p i : Item ι) = false := rfl
@[simp] theorem isWs_register (p i) : isWs (.register p i : Item ι) = false := rfl
@[simp] theorem isWs_openQuote (e) : isWs (.openQuote e : Item ι) = false := rfl
@[simp] theorem isWs_closeQuote : isWs (.closeQuote : Item ι) = false := rfl
@[simp] theorem isWs_openEval : isWs (.openEval : Item ι) = false := rfl
@[simp] theorem isWs_closeEval : isWs (.closeEval : Item ι) = false := rfl

/-! ## Normal form on the reversed vector -/

/-- `b` may be put directly after `a`. -/
def okAfter : Item ι → Item ι → Bool
  | .space, .space => false
  | .space, .push => false
  | .push, .push => false
  | .line, .push => false
  | .push, .line => false
  | .line, .line => false
  | .space, .indentation _ => false
  | .push, .indentation _ => false
  | .line, .indentation _ => false
  | .indentation _, .indentation _ => false
  | _, _ => true

theorem okAfter_iff (a b : Item ι) : okAfter a b = true ↔ ¬ Forbidden a b := by
  constructor
  · intro h hf
    cases hf <;> simp [okAfter] at h
  · intro h
    cases a <;> cases b <;> simp [okAfter] <;> exact (h (by constructor)).elim

/-- Not an indentation of zero. -/
def nz : Item ι → Bool
  | .indentation n => n ≠ 0
  | _ => true

/-- Normal form of a reversed item list. -/
def nfRev : List (Item ι) → Prop
  | [] => True
  | [x] => nz x = true
  | x :: y :: r => okAfter y x = true ∧ nz x = true ∧ nfRev (y :: r)

theorem nfRev.tail {x : Item ι} {r} (h : nfRev (x :: r)) : nfRev r := by
  cases r with
  | nil => trivial
  | cons y r => exact h.2.2

theorem nfRev.nz {x : Item ι} {r} (h : nfRev (x :: r)) : nz x = true := by
  cases r with
  | nil => exact h
  | cons y r => exact h.2.1

theorem nfRev_cons {x : Item ι} {r} (h : nfRev r) (hz : Tokens.nz x = true)
    (ho : ∀ y r', r = y :: r' → okAfter y x = true) : nfRev (x :: r) := by
  cases r with
  | nil => exact hz
  | cons y r => exact ⟨ho y r rfl, hz, h⟩

theorem nfRev_spaceRev {r : List (Item ι)} (h : nfRev r) : nfRev (spaceRev r) := by
  fun_cases spaceRev r with
  | case1 r => exact h
  | case2 _ hr =>
    refine nfRev_cons h rfl ?_
    intro y r' he
    subst he
    cases y <;> first | rfl | (exact (hr _ rfl).elim)

theorem nfRev_pushRev {r : List (Item ι)} (h : nfRev r) : nfRev (pushRev r) := by
  fun_induction pushRev r with
  | case1 r => exact h
  | case2 r ih => exact ih h.tail
  | case3 r ih => exact ih h.tail
  | case4 r h1 h2 h3 =>
    refine nfRev_cons h rfl ?_
    intro y r' he
    subst he
    cases y <;> first | rfl | (exact (h1 _ rfl).elim) | (exact (h2 _ rfl).elim) | (exact (h3 _ rfl).elim)

theorem nfRev_lineRev {r : List (Item ι)} (h : nfRev r) : nfRev (lineRev r) := by
  fun_induction lineRev r with
  | case1 r ih => exact ih h.tail
  | case2 r ih => exact ih h.tail
  | case3 r h1 h2 =>
    refine nfRev_cons h rfl ?_
    intro y r' he
    subst he
    cases y <;> first | rfl | (exact (h1 _ rfl).elim) | (exact (h2 _ rfl).elim)

theorem nfRev_indentationRev {r : List (Item ι)} (n : Int) (h : nfRev r) :
    nfRev (indentationRev n r) := by
  fun_induction indentationRev n r with
  | case1 n r ih => exact ih h.tail
  | case2 n r ih => exact ih h.tail
  | case3 n r ih => exact ih h.tail
  | case4 n u r ih => exact ih h.tail
  | case5 n r h1 h2 h3 h4 hn =>
    refine nfRev_cons h (by simp [nz, hn]) ?_
    intro y r' he
    subst he
    cases y <;> first | rfl | (exact (h1 _ rfl).elim) | (exact (h2 _ rfl).elim) | (exact (h3 _ rfl).elim) | (exact (h4 _ _ rfl).elim)
  | case6 n r => exact h

theorem nfRev_push_other {x : Item ι} {r} (h : nfRev r) (hx : isWs x = false) : nfRev (x :: r) := by
  refine nfRev_cons h ?_ ?_
  · cases x <;> simp_all [nz, isWs]
  · intro y r' _
    cases x <;> cases y <;> first | rfl | simp_all [isWs]

theorem nfRev_item {t : Tokens ι} (i : Item ι) (h : nfRev t.rev) : nfRev (t.item i).rev := by
  cases i with
  | push => exact nfRev_pushRev h
  | line => exact nfRev_lineRev h
  | space => exact nfRev_spaceRev h
  | indentation n => exact nfRev_indentationRev n h
  | _ => exact nfRev_push_other h rfl

theorem nfRev_iff (r : List (Item ι)) : nfRev r ↔ NormalForm r.reverse := by
  constructor
  · intro h
    induction r with
    | nil =>
      refine ⟨?_, by simp⟩
      intro p a b q hl
      simp at hl
    | cons x r ih =>
      have ⟨ih1, ih2⟩ := ih h.tail
      refine ⟨?_, ?_⟩
      · intro p a b q hl
        rcases List.eq_nil_or_concat q with hq | ⟨q', z, hq⟩
        · subst hq
          have h2 : x :: r = b :: a :: p.reverse := by
            have := congrArg List.reverse hl
            simpa using this
          cases h2
          exact (okAfter_iff _ _).1 h.1
        · subst hq
          have h2 : r.reverse ++ [x] = (p ++ a :: b :: q') ++ [z] := by simpa using hl
          have h3 := List.append_inj_left' h2 rfl
          exact ih1 _ _ _ _ h3
      · have := h.nz
        intro hm
        simp at hm
        rcases hm with hm | hm
        · exact ih2 (by simpa using hm)
        · subst hm; simp [Tokens.nz] at this
  · intro h
    induction r with
    | nil => trivial
    | cons x r ih =>
      obtain ⟨h1, h2⟩ := h
      refine nfRev_cons (ih ⟨?_, ?_⟩) ?_ ?_
      · intro p a b q hl
        exact h1 p a b (q ++ [x]) (by simp [hl])
      · intro hm; exact h2 (by simp at hm; simp [hm])
      · cases x <;> simp [Tokens.nz]
        rename_i n
        intro hn; subst hn; exact h2 (by simp)
      · intro y r' he
        subst he
        exact (okAfter_iff _ _).2 (h1 r'.reverse y x [] (by simp))

/-! ## Links -/

/-- Position plus one of the newest language item. -/
def lastPos : List (Item ι) → Nat
  | [] => 0
  | .lang _ _ :: r => r.length + 1
  | .register _ _ :: r => r.length + 1
  | _ :: r => lastPos r

/-- All recorded links point to the previous language item. -/
def LinkedRev : List (Item ι) → Prop
  | [] => True
  | .lang p _ :: r => p = lastPos r ∧ LinkedRev r
  | .register p _ :: r => p = lastPos r ∧ LinkedRev r
  | _ :: r => LinkedRev r

theorem LinkedRev.tail {x : Item ι} {r} (h : LinkedRev (x :: r)) : LinkedRev r := by
  cases x <;> first | exact h.2 | exact h

theorem linked_ws {x : Item ι} {r} (hx : langOf x = none) :
    (LinkedRev (x :: r) ↔ LinkedRev r) ∧ lastPos (x :: r) = lastPos r := by
  cases x <;> first | exact ⟨Iff.rfl, rfl⟩ | simp [langOf] at hx

/-- Invariant of the whole stream. -/
def Linked (t : Tokens ι) : Prop := LinkedRev t.rev ∧ t.lastLangItem = lastPos t.rev

theorem linked_spaceRev {r : List (Item ι)} (h : LinkedRev r) :
    LinkedRev (spaceRev r) ∧ lastPos (spaceRev r) = lastPos r := by
  fun_cases spaceRev r with
  | case1 r => exact ⟨h, rfl⟩
  | case2 hr => exact ⟨h, rfl⟩

theorem linked_pushRev {r : List (Item ι)} (h : LinkedRev r) :
    LinkedRev (pushRev r) ∧ lastPos (pushRev r) = lastPos r := by
  fun_induction pushRev r with
  | case1 r => exact ⟨h, rfl⟩
  | case2 r ih => exact ih h.tail
  | case3 r ih => exact ih h.tail
  | case4 r h1 h2 h3 => exact ⟨h, rfl⟩

theorem linked_lineRev {r : List (Item ι)} (h : LinkedRev r) :
    LinkedRev (lineRev r) ∧ lastPos (lineRev r) = lastPos r := by
  fun_induction lineRev r with
  | case1 r ih => exact ih h.tail
  | case2 r ih => exact ih h.tail
  | case3 r h1 h2 => exact ⟨h, rfl⟩

theorem linked_indentationRev {r : List (Item ι)} (n : Int) (h : LinkedRev r) :
    LinkedRev (indentationRev n r) ∧ lastPos (indentationRev n r) = lastPos r := by
  fun_induction indentationRev n r with
  | case1 n r ih => exact ih h.tail
  | case2 n r ih => exact ih h.tail
  | case3 n r ih => exact ih h.tail
  | case4 n u r ih => exact ih h.tail
  | case5 n r h1 h2 h3 h4 hn => exact ⟨h, rfl⟩
  | case6 n r => exact ⟨h, rfl⟩

theorem Linked.item {t : Tokens ι} (i : Item ι) (h : Linked t) : Linked (t.item i) := by
  obtain ⟨h1, h2⟩ := h
  cases i with
  | push => have := linked_pushRev h1; exact ⟨this.1, h2.trans this.2.symm⟩
  | line => have := linked_lineRev h1; exact ⟨this.1, h2.trans this.2.symm⟩
  | space => have := linked_spaceRev h1; exact ⟨this.1, h2.trans this.2.symm⟩
  | indentation n => have := linked_indentationRev n h1; exact ⟨this.1, h2.trans this.2.symm⟩
  | lang p i => exact ⟨⟨h2, h1⟩, rfl⟩
  | register p i => exact ⟨⟨h2, h1⟩, rfl⟩
  | _ => exact ⟨h1, h2⟩

/-! ## Histories as item lists -/

theorem run_eq (t : Tokens ι) (c : Call ι) : Call.run t c = t.extend (callItems c) := by
  cases c <;> rfl

theorem extend_append (t : Tokens ι) (a b : List (Item ι)) :
    t.extend (a ++ b) = (t.extend a).extend b := by
  simp [extend]

theorem history_eq (cs : List (Call ι)) : history cs = fromIter (cs.flatMap callItems) := by
  unfold history fromIter
  generalize (new : Tokens ι) = t
  induction cs generalizing t with
  | nil => rfl
  | cons c cs ih =>
    rw [List.foldl_cons, ih, run_eq, List.flatMap_cons, extend_append]

/-- Induction over item lists from the right: any invariant preserved by `item`. -/
theorem fromIter_induct (P : Tokens ι → Prop) (h0 : P new) (h1 : ∀ t i, P t → P (t.item i))
    (l : List (Item ι)) : P (fromIter l) := by
  unfold fromIter extend
  have : ∀ t, P t → P (l.foldl item t) := by
    induction l with
    | nil => intro t h; exact h
    | cons x l ih => intro t h; exact ih _ (h1 _ _ h)
  exact this _ h0

theorem fromIter_concat (l : List (Item ι)) (x : Item ι) :
    fromIter (l ++ [x]) = (fromIter l).item x := by
  simp [fromIter, extend]

theorem nf_fromIter (l : List (Item ι)) : nfRev (fromIter l).rev :=
  fromIter_induct (fun t => nfRev t.rev) trivial (fun _ i h => nfRev_item i h) l

theorem linked_fromIter (l : List (Item ι)) : Linked (fromIter l) :=
  fromIter_induct Linked ⟨trivial, rfl⟩ (fun _ i h => h.item i) l

/-! ## Rebuilding -/

theorem pushRev_of_nf {r : List (Item ι)} (h : nfRev (.push :: r)) : pushRev r = .push :: r := by
  cases r with
  | nil => rfl
  | cons y r =>
    have := h.1
    cases y <;> first | rfl | simp [okAfter] at this

theorem lineRev_of_nf {r : List (Item ι)} (h : nfRev (.line :: r)) : lineRev r = .line :: r := by
  cases r with
  | nil => rfl
  | cons y r =>
    have := h.1
    cases y <;> first | rfl | simp [okAfter] at this

theorem spaceRev_of_nf {r : List (Item ι)} (h : nfRev (.space :: r)) : spaceRev r = .space :: r := by
  cases r with
  | nil => rfl
  | cons y r =>
    have := h.1
    cases y <;> first | rfl | simp [okAfter] at this

theorem indentationRev_of_nf {n : Int} {r : List (Item ι)} (h : nfRev (.indentation n :: r)) :
    indentationRev n r = .indentation n :: r := by
  have hz : n ≠ 0 := by simpa [Tokens.nz] using h.nz
  cases r with
  | nil => simp [indentationRev, hz]
  | cons y r =>
    have := h.1
    cases y <;> first | (simp [indentationRev, hz]; done) | simp [okAfter] at this

theorem fromIter_reverse {r : List (Item ι)} (hn : nfRev r) (hl : LinkedRev r) :
    fromIter r.reverse = ⟨r, lastPos r⟩ := by
  induction r with
  | nil => rfl
  | cons x r ih =>
    have ih := ih hn.tail hl.tail
    rw [List.reverse_cons, fromIter_concat, ih]
    cases x with
    | push => simp [item, push, pushRev_of_nf hn, lastPos]
    | line => simp [item, line, lineRev_of_nf hn, lastPos]
    | space => simp [item, space, spaceRev_of_nf hn, lastPos]
    | indentation n => simp [item, indentation, indentationRev_of_nf hn, lastPos]
    | lang p i => simp [item, langItem, lastPos]; exact hl.1.symm
    | register p i => simp [item, langItemRegister, lastPos]; exact hl.1.symm
    | _ => rfl

/-! ## Walking imports -/

theorem walkFrom_eq (r : List (Item ι)) (hl : LinkedRev r) :
    ∀ (ext : List (Item ι)) (fuel : Nat), r.length < fuel →
      walkFrom (r.reverse ++ ext) fuel (lastPos r) = r.filterMap langOf := by
  induction r with
  | nil =>
    intro ext fuel hf
    cases fuel with
    | zero => omega
    | succ fuel => simp [walkFrom, lastPos]
  | cons x r ih =>
    intro ext fuel hf
    have ih := ih hl.tail
    have hv : (x :: r).reverse ++ ext = r.reverse ++ (x :: ext) := by simp
    rw [hv]
    have hlen : r.length < fuel := by simp at hf; omega
    have hget : (r.reverse ++ x :: ext)[r.length]? = some x := by
      rw [List.getElem?_append_right (by simp)]
      simp
    cases fuel with
    | zero => omega
    | succ fuel =>
      have hf' : r.length < fuel := by simp at hf; omega
      cases x with
      | lang p i =>
        have hp := hl.1
        simp [walkFrom, lastPos, langOf]
        rw [hp]; exact ih _ _ hf'
      | register p i =>
        have hp := hl.1
        simp [walkFrom, lastPos, langOf]
        rw [hp]; exact ih _ _ hf'
      | _ => simpa [List.filterMap_cons, langOf, lastPos] using ih _ _ hlen

/-! ## Content and indentation sums -/

/-- Content of a reversed vector. -/
def keepRev (r : List (Item ι)) : List (Item ι) := (r.filter (fun i => !isWs i)).map erase

theorem keepRev_spaceRev (r : List (Item ι)) : keepRev (spaceRev r) = keepRev r := by
  fun_cases spaceRev r <;> simp [keepRev]

theorem keepRev_pushRev (r : List (Item ι)) : keepRev (pushRev r) = keepRev r := by
  fun_induction pushRev r with
  | case1 r => rfl
  | case2 r ih => simpa [keepRev] using ih
  | case3 r ih => simpa [keepRev] using ih
  | case4 r h1 h2 h3 => simp [keepRev]

theorem keepRev_lineRev (r : List (Item ι)) : keepRev (lineRev r) = keepRev r := by
  fun_induction lineRev r with
  | case1 r ih => simpa [keepRev] using ih
  | case2 r ih => simpa [keepRev] using ih
  | case3 r h1 h2 => simp [keepRev]

theorem keepRev_indentationRev (n : Int) (r : List (Item ι)) :
    keepRev (indentationRev n r) = keepRev r := by
  fun_induction indentationRev n r with
  | case1 n r ih => simpa [keepRev] using ih
  | case2 n r ih => simpa [keepRev] using ih
  | case3 n r ih => simpa [keepRev] using ih
  | case4 n u r ih => simpa [keepRev] using ih
  | case5 n r h1 h2 h3 h4 hn => simp [keepRev]
  | case6 n r => rfl

theorem keepRev_item (t : Tokens ι) (i : Item ι) :
    keepRev (t.item i).rev = keepRev [i] ++ keepRev t.rev := by
  cases i with
  | push => simpa [keepRev, item, push] using keepRev_pushRev t.rev
  | line => simpa [keepRev, item, line] using keepRev_lineRev t.rev
  | space => simpa [keepRev, item, space] using keepRev_spaceRev t.rev
  | indentation n => simpa [keepRev, item, indentation] using keepRev_indentationRev n t.rev
  | _ => simp [item, langItem, langItemRegister, keepRev, erase]

theorem keepRev_fromIter (l : List (Item ι)) :
    (keepRev (fromIter l).rev).reverse = keepRev l := by
  suffices h : ∀ r : List (Item ι), keepRev (fromIter r.reverse).rev = keepRev r by
    have := h l.reverse
    simp at this
    rw [this]; simp [keepRev]
  intro r
  induction r with
  | nil => rfl
  | cons x r ih =>
    rw [List.reverse_cons, fromIter_concat, keepRev_item, ih]
    simp only [keepRev, ← List.map_append, ← List.filter_append]
    rfl

theorem indSum_cons (x : Item ι) (r) : indSum (x :: r) = indOf x + indSum r := by
  simp [indSum]

theorem indSum_append (a b : List (Item ι)) : indSum (a ++ b) = indSum a + indSum b := by
  simp [indSum]

theorem indSum_reverse (a : List (Item ι)) : indSum a.reverse = indSum a := by
  induction a with
  | nil => rfl
  | cons x r ih =>
    rw [List.reverse_cons, indSum_append, ih, indSum_cons, indSum_cons]
    simp [indSum]; omega

theorem indSum_spaceRev (r : List (Item ι)) : indSum (spaceRev r) = indSum r := by
  fun_cases spaceRev r <;> simp [indSum, indOf]

theorem indSum_pushRev (r : List (Item ι)) : indSum (pushRev r) = indSum r := by
  fun_induction pushRev r with
  | case1 r => rfl
  | case2 r ih => simpa [indSum, indOf] using ih
  | case3 r ih => simpa [indSum, indOf] using ih
  | case4 r h1 h2 h3 => simp [indSum, indOf]

theorem indSum_lineRev (r : List (Item ι)) : indSum (lineRev r) = indSum r := by
  fun_induction lineRev r with
  | case1 r ih => simpa [indSum, indOf] using ih
  | case2 r ih => simpa [indSum, indOf] using ih
  | case3 r h1 h2 => simp [indSum, indOf]

theorem indSum_indentationRev (n : Int) (r : List (Item ι)) :
    indSum (indentationRev n r) = n + indSum r := by
  fun_induction indentationRev n r with
  | case1 n r ih => simpa [indSum, indOf] using ih
  | case2 n r ih => simpa [indSum, indOf] using ih
  | case3 n r ih => simpa [indSum, indOf] using ih
  | case4 n u r ih => rw [ih, indSum_cons]; simp [indOf]; omega
  | case5 n r h1 h2 h3 h4 hn => simp [indSum, indOf]
  | case6 n r => omega

theorem indSum_item (t : Tokens ι) (i : Item ι) :
    indSum (t.item i).rev = indOf i + indSum t.rev := by
  cases i with
  | push => simpa [indOf, item, push] using indSum_pushRev t.rev
  | line => simpa [indOf, item, line] using indSum_lineRev t.rev
  | space => simpa [indOf, item, space] using indSum_spaceRev t.rev
  | indentation n => simpa [indOf, item, indentation] using indSum_indentationRev n t.rev
  | _ => simp [item, langItem, langItemRegister, indSum, indOf]

theorem indSum_fromIter (l : List (Item ι)) : indSum (fromIter l).rev = indSum l := by
  suffices h : ∀ r : List (Item ι), indSum (fromIter r.reverse).rev = indSum r by
    have := h l.reverse
    simp at this
    rw [this, indSum_reverse]
  intro r
  induction r with
  | nil => rfl
  | cons x r ih => rw [List.reverse_cons, fromIter_concat, indSum_item, ih, indSum_cons]

/-- Language items are collected in the order they were handed over. -/
theorem filterMap_langOf_keepRev (r : List (Item ι)) :
    r.filterMap langOf = (keepRev r).filterMap langOf := by
  induction r with
  | nil => rfl
  | cons x r ih =>
    simp only [keepRev] at ih
    cases x <;> simp [keepRev, langOf, erase, List.filterMap_cons, ih]

/-! ## Equality up to links -/

theorem length_eq_of_erase {a b : List (Item ι)} (h : a.map erase = b.map erase) :
    a.length = b.length := by
  have := congrArg List.length h
  simpa using this

theorem lastPos_of_erase {a b : List (Item ι)} (h : a.map erase = b.map erase) :
    lastPos a = lastPos b := by
  induction a generalizing b with
  | nil => cases b with
    | nil => rfl
    | cons y b => simp at h
  | cons x a ih =>
    cases b with
    | nil => simp at h
    | cons y b =>
      simp only [List.map_cons, List.cons.injEq] at h
      have hl := length_eq_of_erase h.2
      have := ih h.2
      cases x <;> cases y <;> simp_all [erase, lastPos]

theorem eq_of_erase {a b : List (Item ι)} (ha : LinkedRev a) (hb : LinkedRev b)
    (h : a.map erase = b.map erase) : a = b := by
  induction a generalizing b with
  | nil => cases b with
    | nil => rfl
    | cons y b => simp at h
  | cons x a ih =>
    cases b with
    | nil => simp at h
    | cons y b =>
      simp only [List.map_cons, List.cons.injEq] at h
      have hab := ih ha.tail hb.tail h.2
      subst hab
      have hh := h.1
      cases x <;> cases y <;> simp [erase] at hh <;> first
        | (simp [hh]; done)
        | (have h1 := ha.1; have h2 := hb.1; subst hh; rw [h1, h2])
        | rfl

end Tokens
end Genco
