import Verif.Model.Btree

/-!
# Lemmas about ordered sets and maps
-/

set_option autoImplicit false

namespace Genco

open Std

variable {α κ ν : Type}

/-! ## Orders -/

/-- An order given by an injective key is lawful if the order of keys is. -/
theorem transOrd_of_key [Ord α] [Ord κ] [TransOrd κ] (key : α → κ)
    (h : ∀ a b, compare a b = compare (key a) (key b)) : TransOrd α where
  eq_swap := by intro a b; rw [h, h]; exact OrientedCmp.eq_swap
  isLE_trans := by
    intro a b c hab hbc
    rw [h] at hab hbc ⊢
    exact TransCmp.isLE_trans hab hbc

theorem lawfulEqOrd_of_key [Ord α] [Ord κ] [LawfulEqOrd κ] (key : α → κ)
    (hi : ∀ a b, key a = key b → a = b)
    (h : ∀ a b, compare a b = compare (key a) (key b)) : LawfulEqOrd α where
  compare_self := by intro a; rw [h]; exact ReflCmp.compare_self
  eq_of_compare := by intro a b hab; rw [h] at hab; exact hi _ _ (LawfulEqCmp.eq_of_compare hab)

instance instTransOrdPair [Ord α] [Ord κ] [TransOrd α] [TransOrd κ] : TransOrd (α × κ) :=
  Std.instTransOrdProd

instance instLawfulEqOrdPair [Ord α] [Ord κ] [LawfulEqOrd α] [LawfulEqOrd κ] :
    LawfulEqOrd (α × κ) := Std.instLawfulEqOrdProd

/-- `ItemStr` as a pair: is it static, and its text. -/
def ItemStr.key : ItemStr → Bool × Str
  | .box s => (false, s)
  | .static s => (true, s)

theorem ItemStr.compare_key (a b : ItemStr) : compare a b = compare a.key b.key := by
  have hp : ∀ (x y : Bool × Str), compare x y = (compare x.1 y.1).then (compare x.2 y.2) :=
    fun _ _ => rfl
  rw [hp]
  cases a <;> cases b <;> rfl

instance : TransOrd ItemStr := transOrd_of_key ItemStr.key ItemStr.compare_key
instance : LawfulEqOrd ItemStr :=
  lawfulEqOrd_of_key ItemStr.key (by intro a b; cases a <;> cases b <;> simp [ItemStr.key])
    ItemStr.compare_key

theorem cmp_self [Ord α] [LawfulEqOrd α] (a : α) : compare a a = .eq := ReflCmp.compare_self

/-! ## Sets -/

/-- Strictly increasing. -/
def Increasing [Ord α] (l : List α) : Prop := l.Pairwise (fun a b => compare a b = .lt)

theorem mem_setInsert [Ord α] [LawfulEqOrd α] (x y : α) (l : List α) :
    y ∈ setInsert x l ↔ y = x ∨ y ∈ l := by
  induction l with
  | nil => simp [setInsert]
  | cons z r ih =>
    simp only [setInsert]
    split
    · simp
    · rename_i h
      have := LawfulEqCmp.eq_of_compare h
      subst this
      simp
    · simp only [List.mem_cons, ih]
      exact ⟨fun h => h.elim (fun h => .inr (.inl h)) (fun h => h.elim .inl (fun h => .inr (.inr h))),
        fun h => h.elim (fun h => .inr (.inl h)) (fun h => h.elim .inl (fun h => .inr (.inr h)))⟩

theorem increasing_setInsert [Ord α] [TransOrd α] [LawfulEqOrd α] (x : α) (l : List α)
    (h : Increasing l) : Increasing (setInsert x l) := by
  induction l with
  | nil => simp [setInsert, Increasing]
  | cons z r ih =>
    have h' := List.pairwise_cons.1 h
    simp only [setInsert]
    split
    · rename_i hlt
      refine List.pairwise_cons.2 ⟨?_, h⟩
      intro y hy
      rcases List.mem_cons.1 hy with rfl | hy
      · exact hlt
      · exact TransCmp.lt_trans hlt (h'.1 y hy)
    · exact h
    · rename_i hgt
      refine List.pairwise_cons.2 ⟨?_, ih h'.2⟩
      intro y hy
      rcases (mem_setInsert x y r).1 hy with rfl | hy
      · exact OrientedCmp.gt_iff_lt.1 hgt
      · exact h'.1 y hy

theorem foldl_setInsert_mem [Ord α] [LawfulEqOrd α] (l s : List α) (y : α) :
    y ∈ l.foldl (fun s x => setInsert x s) s ↔ y ∈ l ∨ y ∈ s := by
  induction l generalizing s with
  | nil => simp
  | cons x l ih =>
    rw [List.foldl_cons, ih, mem_setInsert, List.mem_cons]
    exact ⟨fun h => h.elim (fun h => .inl (.inr h)) (fun h => h.elim (fun h => .inl (.inl h)) .inr),
      fun h => h.elim (fun h => h.elim (fun h => .inr (.inl h)) .inl) (fun h => .inr (.inr h))⟩

@[simp] theorem mem_setOf [Ord α] [LawfulEqOrd α] (l : List α) (y : α) : y ∈ setOf l ↔ y ∈ l := by
  simp [setOf, foldl_setInsert_mem]

theorem foldl_setInsert_increasing [Ord α] [TransOrd α] [LawfulEqOrd α] (l s : List α)
    (h : Increasing s) : Increasing (l.foldl (fun s x => setInsert x s) s) := by
  induction l generalizing s with
  | nil => exact h
  | cons x l ih => exact ih _ (increasing_setInsert x s h)

theorem increasing_setOf [Ord α] [TransOrd α] [LawfulEqOrd α] (l : List α) :
    Increasing (setOf l) := foldl_setInsert_increasing l [] List.Pairwise.nil

theorem Increasing.nodup [Ord α] [LawfulEqOrd α] {l : List α} (h : Increasing l) : l.Nodup := by
  refine List.Pairwise.imp ?_ h
  intro a b hab he
  subst he
  rw [cmp_self] at hab
  exact absurd hab (by decide)

/-- An increasing list is determined by its elements. -/
theorem Increasing.ext [Ord α] [TransOrd α] [LawfulEqOrd α] {l m : List α} (hl : Increasing l)
    (hm : Increasing m) (h : ∀ x, x ∈ l ↔ x ∈ m) : l = m := by
  induction l generalizing m with
  | nil =>
    cases m with
    | nil => rfl
    | cons y m => exact absurd ((h y).2 (by simp)) (by simp)
  | cons x l ih =>
    cases m with
    | nil => exact absurd ((h x).1 (by simp)) (by simp)
    | cons y m =>
      have hl' := List.pairwise_cons.1 hl
      have hm' := List.pairwise_cons.1 hm
      have hxy : x = y := by
        rcases List.mem_cons.1 ((h x).1 (by simp)) with hx | hx
        · exact hx
        · rcases List.mem_cons.1 ((h y).2 (by simp)) with hy | hy
          · exact hy.symm
          · have h1 := hm'.1 x hx
            have h2 := hl'.1 y hy
            have h3 := TransCmp.lt_trans h1 h2
            rw [cmp_self] at h3
            exact absurd h3 (by decide)
      subst hxy
      congr 1
      refine ih hl'.2 hm'.2 (fun z => ?_)
      have hz := h z
      simp only [List.mem_cons] at hz
      constructor
      · intro hzl
        rcases hz.1 (.inr hzl) with rfl | hzm
        · have := hl'.1 z hzl
          rw [cmp_self] at this
          exact absurd this (by decide)
        · exact hzm
      · intro hzm
        rcases hz.2 (.inr hzm) with rfl | hzl
        · have := hm'.1 z hzm
          rw [cmp_self] at this
          exact absurd this (by decide)
        · exact hzl

theorem setOf_congr [Ord α] [TransOrd α] [LawfulEqOrd α] {l m : List α}
    (h : ∀ x, x ∈ l ↔ x ∈ m) : setOf l = setOf m :=
  (increasing_setOf l).ext (increasing_setOf m) (by simpa using h)

/-! ## Maps -/

/-- Keys strictly increasing. -/
def KeysIncreasing [Ord κ] (m : List (κ × ν)) : Prop := Increasing (m.map Prod.fst)

theorem map_fst_mapModify [Ord κ] (k : κ) (d : ν) (f : ν → ν) (m : List (κ × ν)) :
    (mapModify k d f m).map Prod.fst = setInsert k (m.map Prod.fst) := by
  induction m with
  | nil => rfl
  | cons p r ih =>
    obtain ⟨j, v⟩ := p
    simp only [mapModify, List.map_cons, setInsert]
    cases compare k j <;> simp [ih]

theorem keysIncreasing_mapModify [Ord κ] [TransOrd κ] [LawfulEqOrd κ] (k : κ) (d : ν) (f : ν → ν)
    (m : List (κ × ν)) (h : KeysIncreasing m) : KeysIncreasing (mapModify k d f m) := by
  rw [KeysIncreasing, map_fst_mapModify]
  exact increasing_setInsert _ _ h

theorem mapGet_none [Ord κ] [LawfulEqOrd κ] (k : κ) (m : List (κ × ν)) :
    mapGet k m = none ↔ k ∉ m.map Prod.fst := by
  induction m with
  | nil => simp [mapGet]
  | cons p r ih =>
    obtain ⟨j, v⟩ := p
    simp only [mapGet, List.map_cons, List.mem_cons, not_or]
    by_cases h : compare k j = .eq
    · have := LawfulEqCmp.eq_of_compare h
      simp [this]
    · have : k ≠ j := by
        intro he
        subst he
        exact h (cmp_self _)
      simp [h, ih, this]

theorem mapGet_of_mem [Ord κ] [TransOrd κ] [LawfulEqOrd κ] {k : κ} {v : ν} {m : List (κ × ν)}
    (h : KeysIncreasing m) (hm : (k, v) ∈ m) : mapGet k m = some v := by
  induction m with
  | nil => simp at hm
  | cons p r ih =>
    obtain ⟨j, w⟩ := p
    have h' := List.pairwise_cons.1 h
    simp only [mapGet]
    rcases List.mem_cons.1 hm with he | hm
    · simp only [Prod.mk.injEq] at he
      obtain ⟨rfl, rfl⟩ := he
      simp
    · have hlt := h'.1 k (List.mem_map.2 ⟨(k, v), hm, rfl⟩)
      have : compare k j ≠ .eq := by
        intro he
        have := LawfulEqCmp.eq_of_compare he
        subst this
        simp only [cmp_self] at hlt
        exact absurd hlt (by decide)
      simp [this, ih h'.2 hm]

theorem mem_of_mapGet [Ord κ] [LawfulEqOrd κ] {k : κ} {v : ν} {m : List (κ × ν)}
    (h : mapGet k m = some v) : (k, v) ∈ m := by
  induction m with
  | nil => simp [mapGet] at h
  | cons p r ih =>
    obtain ⟨j, w⟩ := p
    simp only [mapGet] at h
    split at h
    · rename_i he
      have := LawfulEqCmp.eq_of_compare he
      simp only [Option.some.injEq] at h
      subst this h
      simp
    · simp [ih h]

theorem mem_iff_mapGet [Ord κ] [TransOrd κ] [LawfulEqOrd κ] {k : κ} {v : ν} {m : List (κ × ν)}
    (h : KeysIncreasing m) : (k, v) ∈ m ↔ mapGet k m = some v :=
  ⟨mapGet_of_mem h, mem_of_mapGet⟩

theorem mapGet_mapModify [Ord κ] [TransOrd κ] [LawfulEqOrd κ] (k j : κ) (d : ν) (f : ν → ν)
    (m : List (κ × ν)) (h : KeysIncreasing m) [DecidableEq κ] :
    mapGet j (mapModify k d f m) =
      if j = k then some (f ((mapGet k m).getD d)) else mapGet j m := by
  induction m with
  | nil =>
    simp only [mapModify, mapGet]
    by_cases hj : j = k
    · simp [hj, cmp_self]
    · have : compare j k ≠ .eq := fun he => hj (LawfulEqCmp.eq_of_compare he)
      simp [hj, this]
  | cons p r ih =>
    obtain ⟨i, v⟩ := p
    have h' := List.pairwise_cons.1 h
    have hne : ∀ {a b : κ}, a ≠ b → compare a b ≠ .eq :=
      fun hab he => hab (LawfulEqCmp.eq_of_compare he)
    simp only [mapModify]
    split
    · rename_i hlt
      have hk : mapGet k ((i, v) :: r) = none := by
        rw [mapGet_none]
        intro hmem
        rcases List.mem_cons.1 hmem with he | hmem
        · have he : k = i := he
          subst he
          rw [cmp_self] at hlt
          exact absurd hlt (by decide)
        · have h3 := TransCmp.lt_trans hlt (h'.1 k hmem)
          rw [cmp_self] at h3
          exact absurd h3 (by decide)
      rw [hk]
      by_cases hj : j = k
      · simp [mapGet, hj, cmp_self]
      · rw [mapGet]
        simp [hj, hne hj]
    · rename_i heq
      have := LawfulEqCmp.eq_of_compare heq
      subst this
      by_cases hj : j = k
      · simp [mapGet, hj, cmp_self]
      · simp [mapGet, hj, hne hj]
    · rename_i hgt
      have hki : k ≠ i := by
        intro he
        subst he
        rw [cmp_self] at hgt
        exact absurd hgt (by decide)
      simp only [mapGet, hne hki, if_false]
      rw [ih h'.2]
      by_cases hj : j = k
      · subst hj
        simp [hne hki]
      · simp [hj]

/-- A map is determined by what it gives for each key. -/
theorem map_ext [Ord κ] [TransOrd κ] [LawfulEqOrd κ] {m n : List (κ × ν)} (hm : KeysIncreasing m)
    (hn : KeysIncreasing n) (h : ∀ k, mapGet k m = mapGet k n) : m = n := by
  have hmem : ∀ p, p ∈ m ↔ p ∈ n := by
    intro ⟨k, v⟩
    rw [mem_iff_mapGet hm, mem_iff_mapGet hn, h]
  have hkeys : m.map Prod.fst = n.map Prod.fst := by
    refine hm.ext hn (fun k => ?_)
    simp only [List.mem_map]
    exact ⟨fun ⟨p, hp, hk⟩ => ⟨p, (hmem p).1 hp, hk⟩, fun ⟨p, hp, hk⟩ => ⟨p, (hmem p).2 hp, hk⟩⟩
  clear hmem
  induction m generalizing n with
  | nil =>
    cases n with
    | nil => rfl
    | cons p n => simp at hkeys
  | cons p m ih =>
    cases n with
    | nil => simp at hkeys
    | cons q n =>
      obtain ⟨k, v⟩ := p
      obtain ⟨j, w⟩ := q
      simp only [List.map_cons, List.cons.injEq] at hkeys
      obtain ⟨rfl, hk⟩ := hkeys
      have hv := h k
      simp only [mapGet, cmp_self, if_true, Option.some.injEq] at hv
      subst hv
      congr 1
      refine ih (List.pairwise_cons.1 hm).2 (List.pairwise_cons.1 hn).2 (fun i => ?_) hk
      by_cases hi : i = k
      · subst hi
        have h1 : mapGet i m = none := by
          rw [mapGet_none]
          intro hmem
          have := (List.pairwise_cons.1 hm).1 i hmem
          simp only [cmp_self] at this
          exact absurd this (by decide)
        have h2 : mapGet i n = none := by
          rw [mapGet_none, ← hk, ← mapGet_none]
          exact h1
        rw [h1, h2]
      · have hc : compare i k ≠ .eq := fun he => hi (LawfulEqCmp.eq_of_compare he)
        have := h i
        simpa [mapGet, hc] using this

end Genco
