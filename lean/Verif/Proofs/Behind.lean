import Verif.Proofs.Header

/-!
# What stands behind other output
-/

set_option autoImplicit false

namespace Genco

open Spec Tokens

variable {ι : Type}

/-! ## The requests without lost spaces -/

/-- The requests without the spaces that a blank line takes back. -/
def settleA : List Act → List Act
  | [] => []
  | .space :: r => if lineFirst r then settleA r else .space :: settleA r
  | .text s :: r => .text s :: if s = [] then settleA r else r
  | a :: r => a :: settleA r

/-- Once a blank line is asked for, the spaces before do not matter. -/
theorem skip_spaces (cfg : Config) : ∀ (l : List Act) (w : Whitespace) (k k' : Nat) (i : Int) (v : VecState),
    w ≠ .initial → lineFirst l = true →
    vecActs cfg ⟨w, k, i⟩ v l = vecActs cfg ⟨w, k', i⟩ v l ∧ actsSt ⟨w, k, i⟩ l = actsSt ⟨w, k', i⟩ l
  | [], _, _, _, _, _, _, h => by cases h
  | a :: l, w, k, k', i, v, hw, h => by
    cases a with
    | line => cases w <;> first | exact absurd rfl hw | exact ⟨rfl, rfl⟩
    | text s =>
      simp only [lineFirst, Bool.and_eq_true, decide_eq_true_eq] at h
      obtain ⟨rfl, h⟩ := h
      exact skip_spaces cfg l w k k' i v hw h
    | space => exact skip_spaces cfg l w (k + 1) (k' + 1) i v hw h
    | push =>
      cases w with
      | initial => exact absurd rfl hw
      | line => exact skip_spaces cfg l _ k k' i v hw h
      | _ => exact ⟨rfl, rfl⟩
    | indent n =>
      cases w with
      | initial => exact absurd rfl hw
      | line => exact skip_spaces cfg l _ k k' (i + n) v hw h
      | _ => exact ⟨rfl, rfl⟩

theorem actSt_noninitial (st : LSt) (a : Act) (h : st.line ≠ .initial) : (actSt st a).line ≠ .initial := by
  obtain ⟨w, k, i⟩ := st
  cases a with
  | text s => by_cases hs : s = [] <;> simp_all [actSt, LSt.flushed]
  | _ => cases w <;> first | exact absurd rfl h | simp [actSt]

/-- Behind other output the lost spaces do not matter. -/
theorem settle_run (cfg : Config) : ∀ (l : List Act) (st : LSt) (v : VecState), st.line ≠ .initial →
    vecActs cfg st v (settleA l) = vecActs cfg st v l ∧ actsSt st (settleA l) = actsSt st l
  | [], _, _, _ => ⟨rfl, rfl⟩
  | a :: l, st, v, h => by
    have ih := settle_run cfg l (actSt st a) (vecAct cfg st v a) (actSt_noninitial st a h)
    cases a with
    | space =>
      by_cases hl : lineFirst l = true
      · rw [settleA, if_pos hl]
        obtain ⟨i1, i2⟩ := settle_run cfg l st v h
        obtain ⟨w, k, i⟩ := st
        obtain ⟨s1, s2⟩ := skip_spaces cfg l w k (k + 1) i v h hl
        exact ⟨i1.trans s1, i2.trans s2⟩
      · rw [settleA, if_neg hl]
        exact ih
    | text s =>
      by_cases hs : s = []
      · rw [settleA, if_pos hs]; exact ih
      · rw [settleA, if_neg hs]; exact ⟨rfl, rfl⟩
    | push => exact ih
    | line => exact ih
    | indent n => exact ih

theorem settleA_lineFirst : ∀ l : List Act, lineFirst (settleA l) = lineFirst l
  | [] => rfl
  | a :: l => by
    have ih := settleA_lineFirst l
    cases a with
    | space =>
      by_cases hl : lineFirst l = true
      · rw [settleA, if_pos hl]; exact ih
      · rw [settleA, if_neg hl]; exact ih
    | text s =>
      by_cases hs : s = []
      · rw [settleA, if_pos hs, lineFirst, lineFirst, ih]
      · rw [settleA, if_neg hs]
    | push => exact ih
    | line => rfl
    | indent n => exact ih

theorem settleA_loses : ∀ l : List Act, loses (settleA l) = false
  | [] => rfl
  | a :: l => by
    have ih := settleA_loses l
    cases a with
    | space =>
      by_cases hl : lineFirst l = true
      · rw [settleA, if_pos hl]; exact ih
      · rw [settleA, if_neg hl, loses, settleA_lineFirst, ih]; simpa using hl
    | text s =>
      by_cases hs : s = []
      · rw [settleA, if_pos hs, loses, ih, Bool.and_false]
      · rw [settleA, if_neg hs, loses]; simp [hs]
    | push => exact ih
    | line => exact ih
    | indent n => exact ih

theorem settleA_visible : ∀ l : List Act, (settleA l).any visible = l.any visible
  | [] => rfl
  | a :: l => by
    have ih := settleA_visible l
    cases a with
    | space =>
      by_cases hl : lineFirst l = true
      · rw [settleA, if_pos hl, ih]; rfl
      · rw [settleA, if_neg hl, List.any_cons, List.any_cons, ih]
    | text s =>
      by_cases hs : s = []
      · rw [settleA, if_pos hs, List.any_cons, List.any_cons, ih]
      · rw [settleA, if_neg hs]
    | push => exact ih
    | line => exact ih
    | indent n => exact ih

theorem settleA_texts (l : List Str) (r : List Act) :
    settleA (texts l ++ r) = texts l ++ if l.flatten = [] then settleA r else r := by
  induction l with
  | nil => simp [texts]
  | cons s l ih =>
    have e : texts (s :: l) ++ r = .text s :: (texts l ++ r) := rfl
    have e' : ∀ x, texts (s :: l) ++ x = .text s :: (texts l ++ x) := fun _ => rfl
    rw [e, settleA, e', ih]
    by_cases hs : s = [] <;> simp [hs]

/-! ## Streams -/

theorem settled_res (L : Lang ι) (hL : ∀ e, (L.openQuote e).flatten ≠ []) (cfg : Config) (items : List (Item ι)) :
    res L cfg false [Frame.default] (settled L.langItem items) =
      (settleA (res L cfg false [Frame.default] items).1, (res L cfg false [Frame.default] items).2) := by
  induction items with
  | nil => simp [res_nil, settled, settleA]
  | cons i items ih =>
    cases i with
    | space =>
      have hb := lineFirst_eq L hL cfg items
      rw [res_cons]
      simp only [settled, pre, List.singleton_append, settleA, hb]
      split
      · exact ih
      · rw [res_cons, ih]; rfl
    | literal s =>
      simp only [settled]
      rw [res_cons, res_cons]
      simp only [Frame.default, Bool.false_eq_true, if_false, pre, List.singleton_append, settleA]
      simp only [Frame.default] at ih
      by_cases hs : s.text = []
      · simp only [if_pos hs, ih]
      · simp only [if_neg hs]
    | lang n x =>
      simp only [settled]
      rw [res_cons, res_cons]
      simp only [pre, settleA_texts]
      by_cases hs : (L.langItem x).flatten = []
      · simp only [if_pos hs, ih]
      · simp only [if_neg hs]
    | push => simp only [settled]; rw [res_cons, res_cons]; simp only [ih]; rfl
    | line => simp only [settled]; rw [res_cons, res_cons]; simp only [ih]; rfl
    | indentation n =>
      simp only [settled]
      rw [res_cons, res_cons]
      simp only
      split
      · exact ih
      · rw [ih]; rfl
    | register n x => simp only [settled]; rw [res_cons, res_cons]; exact ih
    | openQuote e =>
      simp only [settled]
      rw [res_cons]
      simp only [Frame.default, Bool.not_false, if_true, pre]
      rw [settleA_texts, if_neg (hL e)]
    | closeQuote => simp only [settled]; rw [res_cons]; simp [Frame.default, settleA]
    | openEval => simp only [settled]; rw [res_cons]; simp [Frame.default, settleA]
    | closeEval => simp only [settled]; rw [res_cons]; simp [Frame.default, settleA]

theorem settled_resolve (L : Lang ι) (hL : ∀ e, (L.openQuote e).flatten ≠ []) (cfg : Config) (items : List (Item ι)) :
    resolveItems L cfg (settled L.langItem items) =
      (settleA (resolveItems L cfg items).1, (resolveItems L cfg items).2) := by
  have e : ∀ l : List (Item ι), resolveItems L cfg l =
      ((res L cfg false [Frame.default] l).1, (res L cfg false [Frame.default] l).2.map (fun _ => ())) :=
    fun l => rfl
  rw [e, e, settled_res L hL]

theorem actsSt_noninitial : ∀ (l : List Act) (st : LSt), st.line ≠ .initial ∨ l.any visible = true →
    (actsSt st l).line ≠ .initial
  | [], st, h => by simpa [actsSt] using h
  | a :: l, st, h => by
    refine actsSt_noninitial l (actSt st a) ?_
    rcases h with h | h
    · exact .inl (actSt_noninitial st a h)
    · rw [List.any_cons, Bool.or_eq_true] at h
      rcases h with h | h
      · left
        cases a <;> simp only [visible, Bool.false_eq_true] at h
        rename_i s
        have hs : s ≠ [] := by simpa using h
        simp [actSt, hs, LSt.flushed]
      · exact .inr h

/-- Requests whose lines are not a single empty one show something. -/
theorem visible_of_lines (cfg : Config) (l : List Act) (h : (vecActs cfg .new .new l).intoVec ≠ [[]]) :
    l.any visible = true := by
  cases hv : l.any visible with
  | true => rfl
  | false =>
    rw [vecActs_invisible _ _ _ _ hv] at h
    exact absurd rfl h

theorem settled_file (L : Lang ι) (hL : ∀ e, (L.openQuote e).flatten ≠ []) (cfg : Config) (head body : List (Item ι))
    (rest : List (List (Item ι))) {ls : List Str} (h : toVec L cfg head = some ls) (hls : ls ≠ [[]]) :
    toFileVec L cfg (head :: settled L.langItem body :: rest) = toFileVec L cfg (head :: body :: rest) := by
  rw [toVec_eq] at h
  rw [toFileVec_eq, toFileVec_eq]
  simp only [resolveStreams, settled_resolve L hL]
  generalize hh : resolveItems L cfg head = rh at h
  obtain ⟨ha, ho⟩ := rh
  cases ho with
  | none => cases h
  | some u =>
    simp only [Option.map_some, Option.some.injEq] at h
    have hv := visible_of_lines cfg ha (by rw [h]; exact hls)
    have hn := actsSt_noninitial ha .new (.inr hv)
    generalize resolveItems L cfg body = rb
    obtain ⟨acts, o⟩ := rb
    cases o with
    | none => rfl
    | some u =>
      simp only [pre]
      congr 1
      funext _
      rw [vecActs_append, vecActs_append, vecActs_append, vecActs_append]
      obtain ⟨s1, s2⟩ := settle_run cfg acts (actsSt .new ha) (vecActs cfg .new .new ha) hn
      rw [s1, s2]

theorem behind_file (L : Lang ι) (hL : ∀ e, (L.openQuote e).flatten ≠ []) (cfg : Config) (head : List (Item ι)) {hd : List Str}
    (h : toVec L cfg head = some hd) (hls : hd ≠ [[]]) :
    ∃ n : Int, ∀ body, toFileVec L cfg [head, [.line], body] =
      (toVec L cfg (.indentation n :: settled L.langItem body)).map (fileLines hd) := by
  rw [toVec_eq] at h
  generalize hh : resolveItems L cfg head = rh at h
  obtain ⟨ha, ho⟩ := rh
  cases ho with
  | none => cases h
  | some u =>
    simp only [Option.map_some, Option.some.injEq] at h
    have hv := visible_of_lines cfg ha (by rw [h]; exact hls)
    have hn := actsSt_noninitial ha .new (.inr hv)
    refine ⟨(actsSt .new ha).indent, fun body => ?_⟩
    have hl : resolveItems L cfg ([.line] : List (Item ι)) = ([.line], some ()) := rfl
    rw [toFileVec_eq, toVec_eq]
    have e : ∀ (n : Int) (l : List (Item ι)), resolveItems L cfg (.indentation n :: l) =
        pre (if n = 0 then [] else [.indent n]) (resolveItems L cfg l) := by
      intro n l
      have e : ∀ l : List (Item ι), resolveItems L cfg l =
          ((res L cfg false [Frame.default] l).1, (res L cfg false [Frame.default] l).2.map (fun _ => ())) :=
        fun l => rfl
      rw [e, res_cons, e]
      by_cases hn : n = 0 <;> simp [hn, pre]
    rw [e, settled_resolve L hL]
    simp only [resolveStreams, hl, hh]
    generalize resolveItems L cfg body = rb
    obtain ⟨acts, o⟩ := rb
    cases o with
    | none => rfl
    | some u =>
      simp only [pre, Option.map_some, Option.some.injEq, List.append_nil]
      rw [vecActs_append, vecActs_append, vecActs_append]
      have s0 : actsSt (actsSt .new ha) [.line] = ⟨.line, 0, (actsSt .new ha).indent⟩ := by
        generalize actsSt .new ha = st at hn
        obtain ⟨w, k, i⟩ := st
        cases w <;> first | exact absurd rfl hn | rfl
      have s1 : ∀ i : Int, actsSt .new (if i = 0 then [] else [.indent i]) = ⟨.initial, 0, i⟩ := by
        intro i
        by_cases hi : i = 0
        · simp [hi, actsSt, LSt.new]
        · rw [if_neg hi]; simp [actsSt, actSt, LSt.new]
      have s2 : ∀ i : Int, vecActs cfg .new .new (if i = 0 then [] else [.indent i]) = .new := by
        intro i
        by_cases hi : i = 0
        · simp [hi, vecActs]
        · rw [if_neg hi]; rfl
      have s3 : vecActs cfg (actsSt .new ha) (vecActs cfg .new .new ha) [.line] = vecActs cfg .new .new ha := rfl
      rw [s0, s1, s2, s3]
      have s4 := (settle_run cfg acts ⟨.line, 0, (actsSt .new ha).indent⟩ (vecActs cfg .new .new ha) (by simp)).1
      rw [← s4]
      have hne : hd ≠ [] := by rw [← h]; simp [VecState.intoVec]
      cases hv : acts.any visible with
      | false =>
        have hv' : (settleA acts).any visible = false := by rw [settleA_visible, hv]
        rw [vecActs_invisible _ _ _ _ hv', vecActs_invisible _ _ _ _ hv', h]
        simp only [fileLines, VecState.new, VecState.intoVec]
        rw [if_neg hne]
        simp
      | true =>
        have hv' : (settleA acts).any visible = true := by rw [settleA_visible, hv]
        rw [vecActs_body cfg _ (settleA_loses acts) _ _ hv', h]
        have : (vecActs cfg ⟨.initial, 0, (actsSt .new ha).indent⟩ .new (settleA acts)).intoVec ≠ [[]] :=
          vecActs_ne_from cfg _ _ hv'
        simp only [fileLines]
        rw [if_neg hne, if_neg this]

/-! ## Which streams lose spaces -/

theorem settled_breaks (f : ι → List Str) : ∀ l : List (Item ι), breaksFirst f (settled f l) = breaksFirst f l
  | [] => rfl
  | i :: l => by
    have ih := settled_breaks f l
    cases i with
    | space =>
      simp only [settled]
      split
      · exact ih
      · exact ih
    | literal s =>
      by_cases hs : s.text = [] <;> simp [settled, breaksFirst, hs, ih]
    | lang p x =>
      by_cases hs : (f x).flatten = []
      · simp only [settled, breaksFirst, if_pos hs, ih]
      · simp only [settled, breaksFirst, if_neg hs]
    | push => exact ih
    | line => rfl
    | indentation n => exact ih
    | register p x => exact ih
    | _ => rfl

theorem settled_loses (f : ι → List Str) : ∀ l : List (Item ι), losesSpace f (settled f l) = false
  | [] => rfl
  | i :: l => by
    have ih := settled_loses f l
    cases i with
    | space =>
      simp only [settled]
      split
      · exact ih
      · rename_i h
        simp only [losesSpace, settled_breaks, ih]
        simpa using h
    | literal s =>
      by_cases hs : s.text = [] <;> simp [settled, losesSpace, hs, ih]
    | lang p x =>
      by_cases hs : (f x).flatten = []
      · simp only [settled, losesSpace, if_pos hs, ih, Bool.and_false]
      · simp only [settled, losesSpace, if_neg hs]; simp [hs]
    | push => exact ih
    | line => exact ih
    | indentation n => exact ih
    | register p x => exact ih
    | _ => rfl

theorem settled_eq (f : ι → List Str) : ∀ l : List (Item ι), losesSpace f l = false → settled f l = l
  | [], _ => rfl
  | i :: l, h => by
    have ih := settled_eq f l
    cases i with
    | space =>
      simp only [losesSpace, Bool.or_eq_false_iff] at h
      simp only [settled, h.1, ih h.2]
      rfl
    | literal s =>
      by_cases hs : s.text = []
      · have h' : losesSpace f l = false := by simpa [losesSpace, hs] using h
        simp only [settled, if_pos hs, ih h']
      · simp only [settled, if_neg hs]
    | lang p x =>
      by_cases hs : (f x).flatten = []
      · have h' : losesSpace f l = false := by simpa [losesSpace, hs] using h
        simp only [settled, if_pos hs, ih h']
      · simp only [settled, if_neg hs]
    | push => exact congrArg _ (ih h)
    | line => exact congrArg _ (ih h)
    | indentation n => exact congrArg _ (ih h)
    | register p x => exact congrArg _ (ih h)
    | _ => rfl

theorem settled_sublist (f : ι → List Str) : ∀ l : List (Item ι), (settled f l).Sublist l
  | [] => .slnil
  | i :: l => by
    have ih := settled_sublist f l
    cases i with
    | space =>
      simp only [settled]
      split
      · exact .cons _ ih
      · exact .cons_cons _ ih
    | literal s => simp only [settled]; split; exacts [.cons_cons _ ih, .refl _]
    | lang p x => simp only [settled]; split; exacts [.cons_cons _ ih, .refl _]
    | push => exact .cons_cons _ ih
    | line => exact .cons_cons _ ih
    | indentation n => exact .cons_cons _ ih
    | register p x => exact .cons_cons _ ih
    | _ => exact .refl _

theorem settled_keeps (f : ι → List Str) : ∀ l : List (Item ι),
    (settled f l).filter (fun i => !(i matches .space)) = l.filter (fun i => !(i matches .space))
  | [] => rfl
  | i :: l => by
    have ih := settled_keeps f l
    cases i with
    | space =>
      simp only [settled]
      split
      · exact ih
      · exact ih
    | literal s =>
      simp only [settled]
      split
      · exact congrArg (_ :: ·) ih
      · rfl
    | lang p x =>
      simp only [settled]
      split
      · exact congrArg (_ :: ·) ih
      · rfl
    | push => exact congrArg (_ :: ·) ih
    | line => exact congrArg (_ :: ·) ih
    | indentation n => exact congrArg (_ :: ·) ih
    | register p x => exact congrArg (_ :: ·) ih
    | _ => rfl

end Genco
