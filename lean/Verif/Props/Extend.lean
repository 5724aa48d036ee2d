import Verif.Proofs.Seam
import Verif.Proofs.Header
import Verif.Props.Quoting
import Verif.Props.Gaps
import Mathlib.Data.List.TakeWhile

/-!
# C107: what is written stays written

Calls behind others extend the text of the others.
-/

set_option autoImplicit false

namespace Genco.Props

open Genco Spec Tokens

variable {ι : Type}

theorem extend_rev {b : List (Item ι)} (hb : Closed b) (l : List (Item ι)) :
    ∀ (t : Tokens ι) (r : List (Item ι)), t.rev = r ++ b → ∃ r', (t.extend l).rev = r' ++ b := by
  induction l with
  | nil => exact fun t r h => ⟨r, h⟩
  | cons i l ih =>
    intro t r h
    have : ∃ r', (t.item i).rev = r' ++ b := by
      cases i with
      | push => exact ⟨pushRev r, by simp [item, push, h, pushRev_base hb]⟩
      | line => exact ⟨lineRev r, by simp [item, line, h, lineRev_base hb]⟩
      | space => exact ⟨spaceRev r, by simp [item, space, h, spaceRev_base hb]⟩
      | indentation n => exact ⟨indentationRev n r, by simp [item, indentation, h, indentationRev_base hb]⟩
      | lang p x => exact ⟨.lang t.lastLangItem x :: r, by simp [item, langItem, h]⟩
      | register p x => exact ⟨.register t.lastLangItem x :: r, by simp [item, langItemRegister, h]⟩
      | literal s => exact ⟨.literal s :: r, by simp [item, h]⟩
      | openQuote e => exact ⟨.openQuote e :: r, by simp [item, h]⟩
      | closeQuote => exact ⟨.closeQuote :: r, by simp [item, h]⟩
      | openEval => exact ⟨.openEval :: r, by simp [item, h]⟩
      | closeEval => exact ⟨.closeEval :: r, by simp [item, h]⟩
    obtain ⟨r', h'⟩ := this
    exact ih (t.item i) r' h'

/-- Without the whitespace in its end a stream stays as it is. -/
theorem kept (cs ds : List (Call ι)) :
    ∃ A w B : List (Item ι), (history cs).items = A ++ w ∧ (∀ i ∈ w, isWs i = true) ∧ (history (cs ++ ds)).items = A ++ B := by
  have hb : Closed ((history cs).rev.dropWhile isWs) := by
    generalize (history cs).rev = l
    induction l with
    | nil => trivial
    | cons i l ih =>
      by_cases hi : isWs i = true
      · rw [List.dropWhile_cons_of_pos hi]; exact ih
      · rw [List.dropWhile_cons_of_neg hi]; exact eq_false_of_ne_true hi
  have hr : (history cs).rev = (history cs).rev.takeWhile isWs ++ (history cs).rev.dropWhile isWs :=
    (List.takeWhile_append_dropWhile).symm
  have he : history (cs ++ ds) = (history cs).extend (ds.flatMap callItems) := by
    rw [history_eq, history_eq, List.flatMap_append]
    simp [fromIter, extend]
  obtain ⟨r', h'⟩ := extend_rev hb (ds.flatMap callItems) (history cs) _ hr
  refine ⟨((history cs).rev.dropWhile isWs).reverse, ((history cs).rev.takeWhile isWs).reverse, r'.reverse, ?_, ?_, ?_⟩
  · rw [← List.reverse_append, ← hr]; rfl
  · intro i hi
    exact List.mem_takeWhile_imp (List.mem_reverse.1 hi)
  · rw [← List.reverse_append, ← h', ← he]; rfl

theorem marks_ws (w : List (Item ι)) (hw : ∀ i ∈ w, isWs i = true) (s : MState) : w.foldlM markStep s = some s := by
  induction w generalizing s with
  | nil => rfl
  | cons i w ih =>
    have hi := hw i (by simp)
    have : markStep s i = some s := by cases i <;> simp [isWs] at hi <;> simp [markStep]
    rw [List.foldlM_cons, this]
    exact ih (fun j hj => hw j (by simp [hj])) s

theorem behind_ws (L : Lang ι) (head : Frame) (i : Item ι) (h : isWs i = true) : (behind L head i).any visible = false := by
  unfold behind
  cases i <;> simp [isWs] at h <;> split <;> simp [quotedActs, plainActs, visible]

/-- Calls behind others are resolved behind them. -/
theorem resolve_kept (L : Lang ι) (cfg : Config) (cs ds : List (Call ι)) (f : MFrame) (fs : List MFrame)
    (hc : marks (history cs).items = some [f :: fs]) (hf : f.isEval = false) :
    ∃ p w : List Act, w.any visible = false ∧ resolveItems L cfg (history cs).items = (p ++ w, some ()) ∧
      ((resolveItems L cfg (history (cs ++ ds)).items).2.isSome = true →
        ∃ q, (resolveItems L cfg (history (cs ++ ds)).items).1 = p ++ q) := by
  obtain ⟨A, w, B, h1, h2, h3⟩ := kept cs ds
  rw [h1, h3]
  have hA : marks A = some [f :: fs] := by
    rw [h1, marks, List.foldlM_append] at hc
    unfold marks
    cases hx : A.foldlM markStep [[⟨false, false⟩]] with
    | none => rw [hx] at hc; cases hc
    | some s =>
      rw [hx] at hc
      exact (marks_ws w h2 s).symm.trans hc
  obtain ⟨p, st', s1, s2, -, s4⟩ := (seam L cfg _ A (Nat.le_refl _) [Frame.default] [] (f :: fs) rfl hA).1 rfl
  cases st' with
  | nil => cases s1
  | cons head st =>
  have hr : ∀ X, Safe X → resolveItems L cfg (A ++ X) =
      (p ++ (res L cfg false (head :: st) X).1, (res L cfg false (head :: st) X).2.map fun _ => ()) := by
    intro X hX
    have := s4 X hX
    unfold res at this
    simp only [resolveItems, this]
    rfl
  have hplain : ∀ i ∈ w, isPlain i = true := by
    intro i hi
    have := h2 i hi
    cases i <;> simp [isWs] at this <;> rfl
  refine ⟨p, w.flatMap (behind L head), ?_, ?_, ?_⟩
  · rw [List.any_flatMap, List.any_eq_false]
    intro i hi
    rw [Bool.not_eq_true]
    exact behind_ws L head i (h2 i hi)
  · rw [hr w ⟨fun r hw => absurd (h2 .closeEval (by simp [hw])) (by simp [isWs]),
      fun s r hw => absurd (h2 (.literal s) (by simp [hw])) (by simp [isWs])⟩]
    have := res_behind L cfg head st w [] hplain false
    rw [List.append_nil] at this
    rw [this]
    simp [res, resolve, pre]
  · intro hs
    have hok : marksOk (A ++ B) = true := by rw [marksOk_eq L cfg]; exact hs
    have hsafe : Safe B := by
      rw [marksOk, List.foldlM_append, show A.foldlM markStep [[⟨false, false⟩]] = some [f :: fs] from hA] at hok
      refine ⟨?_, ?_⟩
      · rintro r rfl
        simp [markStep, hf] at hok
      · rintro s r rfl
        simp [markStep, hf] at hok
    exact ⟨_, by rw [hr B hsafe]⟩

/-- C107. Behind a stream that is not inside an evaluation or a string quoted in a string, every call leaves the text
as it is and writes behind it, unless formatting fails. -/
theorem C107_text (L : Lang ι) (cfg : Config) (cs ds : List (Call ι)) (f : MFrame) (fs : List MFrame)
    (hc : marks (history cs).items = some [f :: fs]) (hf : f.isEval = false) :
    ∃ out, toString L cfg (history cs).items = some out ∧
      ∀ o, toString L cfg (history (cs ++ ds)).items = some o → ∃ more, o = out ++ more := by
  obtain ⟨p, w, hw, h1, h2⟩ := resolve_kept L cfg cs ds f fs hc hf
  refine ⟨renderActs cfg p, ?_, ?_⟩
  · rw [toString_eq, h1, Option.map_some, renderActs_eq]
    simp only [render, pieces]
    rw [piecesFrom_append, piecesFrom_invisible ([] ++ p) w (by simpa [List.any_eq_false] using hw), List.append_nil]
  · intro o ho
    rw [toString_eq] at ho
    obtain ⟨u, hu, rfl⟩ := Option.map_eq_some_iff.1 ho
    obtain ⟨q, hq⟩ := h2 (by rw [hu]; rfl)
    rw [hq, ← renderActs_eq]
    exact ⟨_, by rw [renderActs, actsEv_append, evText_append]; rfl⟩

theorem vecActs_more (cfg : Config) (acts : List Act) : ∀ (st : LSt) (b : Str) (t : List Str),
    ∃ more rest, (vecActs cfg st ⟨b, t⟩ acts).intoVec = t ++ (b ++ more) :: rest := by
  induction acts with
  | nil => exact fun st b t => ⟨[], [], by simp [vecActs, VecState.intoVec]⟩
  | cons a acts ih =>
    intro st b t
    rw [vecActs]
    cases a with
    | text s =>
      simp only [vecAct]
      by_cases hs : s = []
      · rw [if_pos hs]; exact ih _ _ _
      · rw [if_neg hs]
        split
        · obtain ⟨m, r, h⟩ := ih (actSt st (.text s)) (b ++ (flushPad cfg st ++ s)) t
          exact ⟨_, _, by rw [h, List.append_assoc]⟩
        · obtain ⟨m, r, h⟩ := ih (actSt st (.text s)) (b ++ (flushPad cfg st ++ s)) t
          exact ⟨_, _, by rw [h, List.append_assoc]⟩
        · obtain ⟨m, r, h⟩ := ih (actSt st (.text s)) (flushPad cfg st ++ s) (t ++ [b])
          exact ⟨[], (flushPad cfg st ++ s ++ m) :: r, by rw [h]; simp⟩
        · obtain ⟨m, r, h⟩ := ih (actSt st (.text s)) (flushPad cfg st ++ s) (t ++ [b, []])
          exact ⟨[], [] :: (flushPad cfg st ++ s ++ m) :: r, by rw [h]; simp⟩
    | _ => exact ih _ _ _

/-- C107. So for lines: they stay, and the last of them is continued. -/
theorem C107_lines (L : Lang ι) (cfg : Config) (cs ds : List (Call ι)) (f : MFrame) (fs : List MFrame)
    (hc : marks (history cs).items = some [f :: fs]) (hf : f.isEval = false) :
    ∃ init last, toVec L cfg (history cs).items = some (init ++ [last]) ∧
      ∀ ls, toVec L cfg (history (cs ++ ds)).items = some ls → ∃ more rest, ls = init ++ (last ++ more) :: rest := by
  obtain ⟨p, w, hw, h1, h2⟩ := resolve_kept L cfg cs ds f fs hc hf
  refine ⟨(vecActs cfg .new .new p).target, (vecActs cfg .new .new p).lineBuffer, ?_, ?_⟩
  · rw [toVec_eq, h1, Option.map_some, vecActs_append, vecActs_invisible _ _ _ _ hw]
    rfl
  · intro ls hl
    rw [toVec_eq] at hl
    obtain ⟨u, hu, rfl⟩ := Option.map_eq_some_iff.1 hl
    obtain ⟨q, hq⟩ := h2 (by rw [hu]; rfl)
    rw [hq, vecActs_append]
    exact vecActs_more cfg q _ _ _

/-- A text to which text is added. -/
def shortCalls : List (Call Str) :=
  [.append (lit "a"), .indent, .append (lit "b"), .append (.openQuote true), .append (lit "c"), .space, .push]

example : marks (history shortCalls).items = some [[⟨true, false⟩]] := by decide

example : toString (dartLang fun s : Str => [s]) ⟨.space 2, ['\n']⟩ (history shortCalls).items =
      some "a\n  b\"c".toList ∧
    toString (dartLang fun s : Str => [s]) ⟨.space 2, ['\n']⟩ (history (shortCalls ++ [.append (lit "d"),
      .append .closeQuote, .unindent, .append (lit "e")])).items = some "a\n  b\"c\n  d\"\ne".toList ∧
    toVec (dartLang fun s : Str => [s]) ⟨.space 2, ['\n']⟩ (history (shortCalls ++ [.append (lit "d"),
      .append .closeQuote, .unindent, .append (lit "e")])).items =
      some ["a".toList, "  b\"c".toList, "  d\"".toList, "e".toList] := by
  refine ⟨?_, ?_, ?_⟩ <;> decide +kernel

/-- Not inside an evaluation: in Dart its short form is another text. -/
theorem C107_eval_needed :
    let L := dartLang fun s : Str => [s]
    let cs : List (Call Str) := [.append (.openQuote true), .append .openEval, .append (lit "a")]
    toString L ⟨.space 4, ['\n']⟩ (history cs).items = some "\"${a".toList ∧
    toString L ⟨.space 4, ['\n']⟩ (history (cs ++ [.append .closeEval, .append .closeQuote])).items =
      some "\"$a\"".toList := by
  refine ⟨?_, ?_⟩ <;> decide +kernel

/-- Not inside a string quoted in a string: it is written with its end. -/
theorem C107_nested_needed :
    let L := dartLang fun s : Str => [s]
    let cs : List (Call Str) := [.append (.openQuote false), .append (.openQuote false), .append (lit "a")]
    toString L ⟨.space 4, ['\n']⟩ (history cs).items = some "\"\\\"a\\\"".toList ∧
    toString L ⟨.space 4, ['\n']⟩ (history (cs ++ [.append (lit "b")])).items = some "\"\\\"ab\\\"".toList := by
  refine ⟨?_, ?_⟩ <;> decide +kernel

end Genco.Props
