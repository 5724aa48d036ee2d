import Verif.Spec.Helpers
import Verif.Props.Gaps

/-!
# Helpers that return streams, and helpers that write in place (C91)
-/

set_option autoImplicit false

namespace Genco.Props

open Genco Spec Tokens

variable {ι : Type}

theorem closed_of_endsFirm (l : List (Item ι)) (h : endsFirm l) : Closed (fromIter l).rev := by
  rcases List.eq_nil_or_concat l with rfl | ⟨l, x, rfl⟩
  · trivial
  · have hx := h x (by simp)
    rw [List.concat_eq_append, fromIter_concat]
    obtain ⟨j, h1, _, h3⟩ := item_closed (fromIter l) x hx
    rw [h3]
    exact h1

theorem append_firm (cs ds : List (Call ι))
    (h : endsFirm (cs.flatMap callItems) ∨ startsFirm (ds.flatMap callItems)) :
    (history cs).appendTokens (history ds) = history (cs ++ ds) := by
  rcases h with h | h
  · refine C10_append_closed_partial cs ds ?_
    have := closed_of_endsFirm _ h
    rw [← history_eq] at this
    intro i hi
    rw [items, List.getLast?_reverse] at hi
    revert this hi
    cases (history cs).rev with
    | nil => simp
    | cons a r => intro h1 h2; simp only [List.head?_cons, Option.some.injEq] at h2; subst h2; exact h1
  · cases hd : ds.flatMap callItems with
    | nil =>
      rw [history_eq ds, history_eq (cs ++ ds), List.flatMap_append, hd, List.append_nil, ← history_eq]
      rfl
    | cons i d =>
      exact C10_append_open_partial cs ds i (by rw [hd]; rfl) (h i (by rw [hd]; rfl))

theorem returned_inPlace (ws : List (Work ι)) :
    ∀ ds : List (Call ι), Joints (ds.flatMap callItems) ws → returned (history ds) ws = history (ds ++ inPlace ws) := by
  induction ws using inPlace.induct with
  | case1 => intro ds _; simp [returned, inPlace]
  | case2 c r ih =>
    intro ds h
    have h1 : c.run (history ds) = history (ds ++ [c]) := by simp [history, List.foldl_append]
    rw [returned, h1, ih _ (by simpa [Joints] using h), inPlace]
    simp
  | case3 b r ihb ihr =>
    intro ds h
    simp only [Joints] at h
    obtain ⟨h1, h2, h3⟩ := h
    have hb : returned Tokens.new b = history (inPlace b) := ihb [] h1
    rw [returned, hb, append_firm ds (inPlace b) h2, ihr _ (by simpa using h3), inPlace]
    simp

/-- C91. A program whose helpers return streams makes the very stream that it makes with helpers that
write in place, with helpers of any depth, if at each use of a helper there is whitespace on one side
at most: before the use, or at the start of what the helper makes. -/
theorem C91_helpers (ws : List (Work ι)) (h : Joints [] ws) : returned Tokens.new ws = history (inPlace ws) :=
  returned_inPlace ws [] h

/- A helper with a helper. Indentation that the inner helper leaves open is closed outside. -/
def program : List (Work Str) :=
  [.call (.append (lit "fn")), .call .space,
    .helper [.call (.append (lit "f")), .helper [.call .space, .call (.append (lit "{")), .call .indent],
      .call (.append (lit "x"))],
    .call .unindent, .helper [], .helper [.call (.append (lit "}"))]]

theorem program_joints : Joints [] program := by
  simp [program, Joints, inPlace, callItems, startsFirm, endsFirm, isWs, lit]

example : toString plain cfg2 (returned Tokens.new program).items = some "fn f {\n  x\n}".toList := by
  rw [C91_helpers program program_joints]
  simp only [program, inPlace, List.cons_append, List.nil_append, List.append_nil]
  decide +kernel

theorem fromIter_prefix {r a b : List (Item ι)} (h : r = b ++ a) (hn : nfRev r) (hl : LinkedRev r) :
    (fromIter a.reverse).items = a.reverse := by
  have : nfRev a ∧ LinkedRev a := by
    induction b generalizing r with
    | nil => subst h; exact ⟨hn, hl⟩
    | cons x b ih => subst h; exact ih rfl hn.tail hl.tail
  rw [fromIter_reverse this.1 this.2]
  rfl

/-- The last item that is not whitespace. -/
theorem last_firm (l : List (Item ι)) (h : ∃ i ∈ l, isWs i = false) :
    ∃ b x a, l = b ++ x :: a ∧ isWs x = false := by
  obtain ⟨i, hi, hw⟩ := h
  obtain ⟨b, a, rfl⟩ := List.append_of_mem hi
  exact ⟨b, i, a, rfl, hw⟩

/-- C91. The places where two streams are joined do not matter: appending streams is associative if the
one in the middle has anything but whitespace. -/
theorem C91_assoc (cs ds es : List (Call ι)) (h : content ds ≠ []) :
    ((history cs).appendTokens (history ds)).appendTokens (history es) =
      (history cs).appendTokens ((history ds).appendTokens (history es)) := by
  have hc : content [.stream (history ds).items] = content ds := by
    rw [← (C05_content ds), content]
    simp [callItems]
  obtain ⟨a, x, w, hd, hx⟩ : ∃ a x w, (history ds).items = a ++ x :: w ∧ isWs x = false := by
    apply last_firm
    rw [← hc] at h
    simp only [content, List.flatMap_cons, List.flatMap_nil, callItems, List.append_nil, ne_eq, List.map_eq_nil_iff,
      List.filter_eq_nil_iff, not_forall] at h
    obtain ⟨i, hi, hw⟩ := h
    exact ⟨i, hi, by simpa using hw⟩
  have hf : fromIter (history ds).items = history ds := by rw [history_eq, fromIter_idem]
  have ha : (fromIter a).items = a := by
    have := fromIter_prefix (r := (history ds).rev) (a := a.reverse) (b := w.reverse ++ [x])
      (by have h1 := congrArg List.reverse hd; simpa [items] using h1)
      (by rw [history_eq]; exact nf_fromIter _) (by rw [history_eq]; exact (linked_fromIter _).1)
    simpa using this
  have hl : Linked (history cs) := by rw [history_eq]; exact linked_fromIter _
  show ((history cs).extend (history ds).items).extend _ = (history cs).extend ((history ds).extend _).items
  have hx2 : ∀ e, (history ds).extend e = fromIter ((history ds).items ++ e) := by
    intro e
    rw [fromIter, extend_append, ← fromIter, hf]
  rw [hx2, ← extend_append, hd]
  generalize (history es).items = e
  have h1 := fromIter_split a (w ++ e) x hx
  rw [ha] at h1
  have h2 : (fromIter (a ++ x :: (w ++ e))).items.map erase = (a ++ x :: (fromIter (w ++ e)).items).map erase := by
    rw [h1]; simp
  have h3 : a ++ x :: w ++ e = a ++ x :: (w ++ e) := by simp
  rw [h3, extend_erase _ h2, extend_append, extend_append]
  obtain ⟨j, g1, _, g3⟩ := item_closed ((history cs).extend a) x hx
  show (((history cs).extend a).item x).extend (w ++ e) = (((history cs).extend a).item x).extend (fromIter (w ++ e)).items
  rw [extend_items _ ((linked_extend hl a).item x) (by rw [g3]; exact g1)]

example : content (ι := Str) [.indent, .append (lit "a"), .unindent] ≠ [] := by simp [content, callItems, isWs, lit]

/-- C91. With a stream of mere whitespace in the middle it does matter. -/
theorem C91_assoc_negative :
    toString plain cfg2 (((history [.append (lit "a"), .push]).appendTokens (history [.indent])).appendTokens
        (history [.unindent, .append (lit "b")])).items = some "ab".toList ∧
    toString plain cfg2 ((history [.append (lit "a"), .push]).appendTokens
        ((history [.indent]).appendTokens (history [.unindent, .append (lit "b")]))).items = some "a\nb".toList := by
  decide +kernel

end Genco.Props
