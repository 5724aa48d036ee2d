import Verif.Proofs.Btree

/-!
# Maps of sets filled from a list
-/

set_option autoImplicit false

namespace Genco

open Std

variable {ι α κ : Type}

theorem setOf_concat [Ord α] (l : List α) (x : α) : setOf (l ++ [x]) = setInsert x (setOf l) := by
  simp [setOf]

/-- Fill a map of sets: `f` gives the key and the element of an entry, if any. -/
def collect [Ord κ] [Ord α] (f : ι → Option (κ × α)) (l : List ι) : List (κ × List α) :=
  l.foldl (fun m i => match f i with
    | some (k, x) => mapModify k [] (setInsert x) m
    | none => m) []

/-- The elements for a key. -/
def select [DecidableEq κ] (f : ι → Option (κ × α)) (k : κ) (l : List ι) : List α :=
  l.filterMap (fun i => match f i with
    | some (j, x) => if j = k then some x else none
    | none => none)

theorem mem_select [DecidableEq κ] (f : ι → Option (κ × α)) (k : κ) (l : List ι) (x : α) :
    x ∈ select f k l ↔ ∃ i ∈ l, f i = some (k, x) := by
  simp only [select, List.mem_filterMap]
  constructor
  · rintro ⟨i, hi, h⟩
    refine ⟨i, hi, ?_⟩
    cases hf : f i with
    | none => rw [hf] at h; cases h
    | some p =>
      obtain ⟨j, y⟩ := p
      rw [hf] at h
      simp only [Option.ite_none_right_eq_some, Option.some.injEq] at h
      rw [h.1, h.2]
  · rintro ⟨i, hi, h⟩
    exact ⟨i, hi, by simp [h]⟩

theorem select_concat [DecidableEq κ] (f : ι → Option (κ × α)) (k : κ) (l : List ι) (i : ι) :
    select f k (l ++ [i]) = select f k l ++ (match f i with
      | some (j, x) => if j = k then [x] else []
      | none => []) := by
  simp only [select, List.filterMap_append, List.filterMap_cons, List.filterMap_nil]
  cases f i with
  | none => rfl
  | some p =>
    obtain ⟨j, x⟩ := p
    simp only
    by_cases h : j = k <;> simp [h]

theorem list_rec_right {P : List ι → Prop} (h0 : P []) (h1 : ∀ l i, P l → P (l ++ [i])) (l : List ι) : P l := by
  have : ∀ r : List ι, P r.reverse := by
    intro r
    induction r with
    | nil => exact h0
    | cons i r ih => rw [List.reverse_cons]; exact h1 _ _ ih
  simpa using this l.reverse

theorem collect_spec [Ord κ] [TransOrd κ] [LawfulEqOrd κ] [DecidableEq κ] [Ord α]
    (f : ι → Option (κ × α)) (l : List ι) :
    KeysIncreasing (collect f l) ∧ ∀ k, mapGet k (collect f l) =
      if select f k l = [] then none else some (setOf (select f k l)) := by
  induction l using list_rec_right with
  | h0 => exact ⟨List.Pairwise.nil, fun k => rfl⟩
  | h1 l i ih =>
    obtain ⟨hk, hg⟩ := ih
    have e : collect f (l ++ [i]) = match f i with
        | some (k, x) => mapModify k [] (setInsert x) (collect f l)
        | none => collect f l := by
      simp only [collect, List.foldl_append, List.foldl_cons, List.foldl_nil]
    rw [e]
    simp only [select_concat]
    cases hf : f i with
    | none => exact ⟨hk, fun k => by simpa using hg k⟩
    | some p =>
      obtain ⟨j, x⟩ := p
      refine ⟨keysIncreasing_mapModify j [] _ _ hk, fun k => ?_⟩
      simp only
      rw [mapGet_mapModify _ _ _ _ _ hk]
      by_cases hj : k = j
      · subst hj
        simp only [if_true, List.append_eq_nil_iff, List.cons_ne_nil, and_false, if_false, Option.some.injEq]
        rw [hg]
        by_cases hs : select f k l = []
        · simp [hs, setOf]
        · rw [if_neg hs, Option.getD_some, setOf_concat]
      · have hj' : j ≠ k := fun h => hj h.symm
        rw [if_neg hj, hg]
        simp [hj']

theorem keys_collect [Ord κ] [TransOrd κ] [LawfulEqOrd κ] [DecidableEq κ] [Ord α]
    (f : ι → Option (κ × α)) (l : List ι) : KeysIncreasing (collect f l) := (collect_spec f l).1

/-- The entries of the map. -/
theorem mem_collect [Ord κ] [TransOrd κ] [LawfulEqOrd κ] [DecidableEq κ] [Ord α]
    (f : ι → Option (κ × α)) (l : List ι) (k : κ) (s : List α) :
    (k, s) ∈ collect f l ↔ select f k l ≠ [] ∧ s = setOf (select f k l) := by
  obtain ⟨hk, hg⟩ := collect_spec f l
  rw [mem_iff_mapGet hk, hg]
  by_cases h : select f k l = []
  · simp [h]
  · simp only [h, if_false, Option.some.injEq, ne_eq, not_false_eq_true, true_and]
    exact eq_comm

/-- The map depends only on the set of entries. -/
theorem collect_congr [Ord κ] [TransOrd κ] [LawfulEqOrd κ] [DecidableEq κ] [Ord α] [TransOrd α]
    [LawfulEqOrd α] (f : ι → Option (κ × α)) {l l' : List ι} (h : ∀ i, i ∈ l ↔ i ∈ l') :
    collect f l = collect f l' := by
  obtain ⟨hk, hg⟩ := collect_spec f l
  obtain ⟨hk', hg'⟩ := collect_spec f l'
  refine map_ext hk hk' (fun k => ?_)
  have hm : ∀ x, x ∈ select f k l ↔ x ∈ select f k l' := by
    intro x; simp only [mem_select, h]
  rw [hg, hg', setOf_congr hm]
  have : select f k l = [] ↔ select f k l' = [] := by
    simp only [List.eq_nil_iff_forall_not_mem, hm]
  simp only [this]

end Genco
