import Verif.Proofs.Tokens

/-!
# Properties of token streams (C01–C05, C07)
-/

set_option autoImplicit false

namespace Genco.Props

open Genco Spec Tokens

variable {ι : Type}

/-- C01. After any history of calls, iterating the stream shows whitespace
normal form. -/
theorem C01_normal_form (cs : List (Call ι)) : NormalForm (history cs).items := by
  rw [history_eq]
  exact (nfRev_iff _).1 (nf_fromIter _)

/-- Non-trivial instance: a run of whitespace collapses to one line. -/
example : (history (ι := Nat) [.append (.literal (.box ['a'])), .space, .push, .line, .push,
    .line]).items = [.literal (.box ['a']), .line] := by decide

/-- C01, completeness: every sequence in normal form (links aside) is what some
history shows, so the normal form describes exactly what streams can look like. -/
theorem C01_normal_form_complete (l : List (Item ι)) (h : NormalForm l) :
    ∃ cs : List (Call ι), ((history cs).items.map erase) = l.map erase := by
  refine ⟨[.stream l], ?_⟩
  rw [history_eq]
  simp only [List.flatMap_cons, List.flatMap_nil, List.append_nil, callItems]
  have key : ∀ r : List (Item ι), nfRev r →
      (fromIter r.reverse).rev.map erase = r.map erase ∧ nfRev (fromIter r.reverse).rev := by
    intro r
    induction r with
    | nil => intro _; exact ⟨rfl, trivial⟩
    | cons x r ih =>
      intro hn
      obtain ⟨ih, ihn⟩ := ih hn.tail
      rw [List.reverse_cons, fromIter_concat]
      refine ⟨?_, nfRev_item _ ihn⟩
      have hhead : ∀ y r', (fromIter r.reverse).rev = y :: r' → okAfter y x = true := by
        intro y r' he
        rw [he] at ih
        cases r with
        | nil => simp at ih
        | cons z r =>
          simp only [List.map_cons, List.cons.injEq] at ih
          have hz := hn.1
          have he := ih.1
          cases y <;> cases z <;> simp [erase] at he <;>
            (cases x <;> first | rfl | exact hz)
      have hnf : nfRev (x :: (fromIter r.reverse).rev) := nfRev_cons ihn hn.nz hhead
      cases x with
      | push => simp [item, push, pushRev_of_nf hnf, ih]
      | line => simp [item, line, lineRev_of_nf hnf, ih]
      | space => simp [item, space, spaceRev_of_nf hnf, ih]
      | indentation n => simp [item, indentation, indentationRev_of_nf hnf, ih]
      | _ => simp [item, langItem, langItemRegister, erase, ih]
  have hn : nfRev l.reverse := (nfRev_iff _).2 (by simpa using h)
  have := (key _ hn).1
  simp only [List.reverse_reverse] at this
  simp [items, List.map_reverse, this]

example : NormalForm (ι := Nat) [.literal (.box ['a']), .line, .space, .line, .lang 7 3] := by
  rw [← List.reverse_reverse (as := [_, _, _, _, _]), ← nfRev_iff]
  simp [nfRev, okAfter, nz]

/-- C02. Collecting the items of a stream gives the stream back, and so does
appending it to an empty stream. -/
theorem C02_rebuild (cs : List (Call ι)) :
    fromIter (history cs).items = history cs ∧
    Tokens.new.appendTokens (history cs) = history cs := by
  have h : fromIter (history cs).items = history cs := by
    rw [history_eq]
    have hl := linked_fromIter (cs.flatMap callItems)
    have hn := nf_fromIter (cs.flatMap callItems)
    unfold items
    rw [fromIter_reverse hn hl.1, ← hl.2]
  exact ⟨h, h⟩

example : (fromIter (history (ι := Nat) [.appendLang 5, .space, .line, .register 6, .indent]).items)
    = history [.appendLang 5, .space, .line, .register 6, .indent] := by decide

/-- C03. `walk_imports` yields all language items ever handed over, newest
first. -/
theorem C03_walk_imports (cs : List (Call ι)) :
    (history cs).walkImports = (inserted cs).reverse := by
  rw [history_eq]
  have hl := linked_fromIter (cs.flatMap callItems)
  unfold walkImports
  rw [hl.2]
  unfold items
  have := walkFrom_eq _ hl.1 [] ((fromIter (cs.flatMap callItems)).rev.reverse.length + 1)
    (by simp)
  rw [List.append_nil] at this
  rw [this, filterMap_langOf_keepRev, inserted, filterMap_langOf_keepRev (cs.flatMap callItems),
    ← keepRev_fromIter (cs.flatMap callItems), List.filterMap_reverse, List.reverse_reverse]

example : (history (ι := Nat) [.appendLang 1, .push, .line, .indent, .register 2, .space,
    .unindent, .stream [.lang 77 3, .push, .register 9 4]]).walkImports = [4, 3, 2, 1] := by decide

/-- C04. Two streams are equal iff they show the same items up to links. -/
theorem C04_equality (cs ds : List (Call ι)) :
    history cs = history ds ↔ (history cs).items.map erase = (history ds).items.map erase := by
  constructor
  · intro h; rw [h]
  · intro h
    rw [history_eq, history_eq] at *
    have h1 := linked_fromIter (cs.flatMap callItems)
    have h2 := linked_fromIter (ds.flatMap callItems)
    generalize fromIter (cs.flatMap callItems) = a at *
    generalize fromIter (ds.flatMap callItems) = b at *
    have hr : a.rev.map erase = b.rev.map erase := by
      simpa [items, List.map_reverse] using h
    have he := eq_of_erase h1.1 h2.1 hr
    obtain ⟨ar, al⟩ := a
    obtain ⟨br, bl⟩ := b
    simp only at he
    subst he
    have e1 := h1.2
    have e2 := h2.2
    simp only at e1 e2
    rw [e1, e2]

/-- C04 with the comparison against an item vector: a stream compares equal to
the vector of its own items. -/
example : history (ι := Nat) [.appendLang 1, .space, .push, .appendLang 2] =
    history [.stream [.lang 40 1, .push, .lang 50 2]] := by decide

/-- C05. The non-whitespace items of the stream are exactly those handed over,
in order. -/
theorem C05_content (cs : List (Call ι)) :
    ((history cs).items.filter (fun i => !isWs i)).map erase = content cs := by
  rw [history_eq]
  have := keepRev_fromIter (cs.flatMap callItems)
  simpa [keepRev, items, content, List.filter_reverse, List.map_reverse] using this

example : content (ι := Nat) [.append .closeQuote, .push, .indent, .register 3] =
    [.closeQuote, .register 0 3] := by decide

/-- C07. Net indentation is conserved. -/
theorem C07_net_indentation (cs : List (Call ι)) :
    indSum (history cs).items = indSum (cs.flatMap callItems) := by
  rw [history_eq, items, indSum_reverse, indSum_fromIter]

/-- C07 for histories of `indent`/`unindent` and calls without raw indentation
items: the sum counts the calls. -/
theorem C07_counts [DecidableEq ι] (cs : List (Call ι))
    (h : ∀ c ∈ cs, (∀ i, c = .append i → indOf i = 0) ∧
      (∀ it, c = .stream it → indSum it = 0)) :
    indSum (history cs).items =
      (cs.countP (fun c => match c with | .indent => true | _ => false) : Int) -
      cs.countP (fun c => match c with | .unindent => true | _ => false) := by
  rw [C07_net_indentation]
  induction cs with
  | nil => rfl
  | cons c cs ih =>
    have ih := ih (fun c hc => h c (List.mem_cons_of_mem _ hc))
    have hc := h c (List.mem_cons_self)
    rw [List.flatMap_cons, indSum_append, ih, List.countP_cons, List.countP_cons]
    cases c with
    | append i => have := hc.1 i rfl; simp [callItems, indSum, this]
    | stream it => have := hc.2 it rfl; simp [callItems, this]
    | indent => simp [callItems, indSum, indOf]; omega
    | unindent => simp [callItems, indSum, indOf]; omega
    | _ => simp [callItems, indSum, indOf]

example : indSum (history (ι := Nat) [.indent, .push, .indent, .append (.literal (.box ['a'])),
    .line, .unindent, .space, .indent]).items = 2 := by decide

theorem indentationRev_ws (n : Int) (r : List (Item ι)) (h : ∀ x ∈ r, isWs x = true) :
    indentationRev n r = if n + indSum r ≠ 0 then [.indentation (n + indSum r)] else [] := by
  induction r generalizing n with
  | nil => simp [indentationRev, indSum]
  | cons x r ih =>
    have hx := h x (by simp)
    have ih := fun n => ih n (fun y hy => h y (by simp [hy]))
    cases x with
    | indentation u => rw [indentationRev, ih, show indSum (.indentation u :: r) = u + indSum r by simp [indSum, indOf], Int.add_assoc]
    | push => rw [indentationRev, ih, show indSum ((.push : Item ι) :: r) = indSum r by simp [indSum, indOf]]
    | line => rw [indentationRev, ih, show indSum ((.line : Item ι) :: r) = indSum r by simp [indSum, indOf]]
    | space => rw [indentationRev, ih, show indSum ((.space : Item ι) :: r) = indSum r by simp [indSum, indOf]]
    | _ => cases hx

theorem spaceRev_ne (r : List (Item ι)) : spaceRev r ≠ [] := by
  unfold spaceRev; split <;> simp

theorem pushRev_ne (r : List (Item ι)) : pushRev r ≠ [] := by
  induction r with
  | nil => simp [pushRev]
  | cons x r ih => cases x <;> simp [pushRev, ih]

theorem lineRev_ne (r : List (Item ι)) : lineRev r ≠ [] := by
  induction r with
  | nil => simp [lineRev]
  | cons x r ih => cases x <;> simp [lineRev, ih]

/-- C82. A stream says it is empty exactly if nothing but whitespace and indentation was handed over, the
indentation adds up to nothing, and there was no other whitespace after the last indentation. -/
theorem C82_is_empty (cs : List (Call ι)) :
    (history cs).isEmpty = true ↔ content cs = [] ∧ indSum (cs.flatMap callItems) = 0 ∧
      ∀ x, (cs.flatMap callItems).getLast? = some x → ∃ n, x = .indentation n := by
  have he : (history cs).isEmpty = true ↔ (history cs).rev = [] := by simp [isEmpty]
  have h5 := C05_content cs
  have h7 := C07_net_indentation cs
  rw [he, history_eq] at *
  generalize hl : cs.flatMap callItems = l at *
  have hsnoc : ∀ a x, l = a ++ [x] → (fromIter l).rev = ((fromIter a).item x).rev := by
    rintro a x rfl
    rw [fromIter, extend_append]
    rfl
  constructor
  · intro h
    have hi : (fromIter l).items = [] := by rw [items, h]; rfl
    rw [hi] at h5 h7
    refine ⟨h5.symm, h7.symm, fun x hx => ?_⟩
    obtain ⟨a, ha⟩ : ∃ a, l = a ++ [x] := ⟨l.dropLast, by
      obtain ⟨hne, hx⟩ := List.getLast?_eq_some_iff.1 hx
      rw [hx]; simp⟩
    have hr := hsnoc a x ha
    rw [h] at hr
    cases x with
    | indentation n => exact ⟨n, rfl⟩
    | space => exact absurd hr.symm (spaceRev_ne _)
    | push => exact absurd hr.symm (pushRev_ne _)
    | line => exact absurd hr.symm (lineRev_ne _)
    | _ => cases hr
  · rintro ⟨h1, h2, h3⟩
    rw [h1] at h5
    rw [h2] at h7
    rcases List.eq_nil_or_concat l with rfl | ⟨a, x, ha⟩
    · rfl
    · rw [List.concat_eq_append] at ha
      obtain ⟨n, rfl⟩ := h3 x (by rw [ha]; simp)
      have hr := hsnoc a _ ha
      have hc : ∀ y ∈ (fromIter a).rev, isWs y = true := by
        have k := C05_content [Call.stream a]
        rw [history_eq] at k
        have e1 : [Call.stream a].flatMap callItems = a := by simp [callItems]
        rw [e1] at k
        have e2 : content [Call.stream a] = [] := by
          have e3 := h1
          simp only [content, hl, ha, List.filter_append, List.map_append, List.append_eq_nil_iff] at e3
          simp only [content, e1]
          exact e3.1
        rw [e2] at k
        intro y hy
        have k' := List.map_eq_nil_iff.1 k
        rw [List.filter_eq_nil_iff] at k'
        have := k' y (by rw [items]; exact List.mem_reverse.2 hy)
        simpa using this
      have hs : indSum (fromIter a).rev + n = 0 := by
        have k := C07_net_indentation [Call.stream a]
        rw [history_eq] at k
        have e1 : [Call.stream a].flatMap callItems = a := by simp [callItems]
        rw [e1, items, indSum_reverse] at k
        rw [k]
        have : indSum l = indSum a + n := by rw [ha, indSum_append]; simp [indSum, indOf]
        omega
      rw [hr]
      show indentationRev n (fromIter a).rev = []
      rw [indentationRev_ws n _ hc, if_neg (by omega)]

/-- Whitespace before an indentation that adds up to nothing is gone, whitespace behind it is not. -/
example : (history (ι := Nat) [.push, .indent, .line, .indent, .space, .append (.indentation (-2))]).isEmpty = true ∧
    (history (ι := Nat) [.indent, .unindent, .space]).isEmpty = false ∧
    (history (ι := Nat) [.indent, .push]).isEmpty = false ∧
    (history (ι := Nat) [.indent, .append (.literal (.box [])), .unindent]).isEmpty = false := by decide

end Genco.Props
