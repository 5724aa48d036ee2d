import Mathlib.Data.List.Nodup
import Verif.Proofs.Headers
import Verif.Spec.Rust

/-!
# Use declarations of Rust
-/

set_option autoImplicit false

namespace Genco.Rust

open Spec Spec.RustFile

/-! ## Segments -/

theorem revSeg2_of (s q : Str) (hs : ':' ∉ s) : revSeg2 (s ++ ':' :: ':' :: q) = s := by
  induction s with
  | nil => simp [revSeg2]
  | cons c s ih =>
    simp only [List.mem_cons, not_or] at hs
    have : revSeg2 (c :: (s ++ ':' :: ':' :: q)) = c :: revSeg2 (s ++ ':' :: ':' :: q) := by
      rw [revSeg2]
      intro r h
      exact fun _ => hs.1 h.symm
    rw [List.cons_append, this, ih hs.2]

theorem revSeg2_self (s : Str) (hs : ':' ∉ s) : revSeg2 s = s := by
  induction s with
  | nil => rfl
  | cons c s ih =>
    simp only [List.mem_cons, not_or] at hs
    have : revSeg2 (c :: s) = c :: revSeg2 s := by
      rw [revSeg2]
      intro r h
      exact fun _ => hs.1 h.symm
    rw [this, ih hs.2]

theorem lastSeg2_of {p s : Str} (h : LastSegment p s) : lastSeg2 p = s := by
  obtain ⟨hs, rfl | ⟨q, rfl⟩⟩ := h
  · rw [lastSeg2, revSeg2_self _ (by simpa using hs), List.reverse_reverse]
  · have : (q ++ "::".toList ++ s).reverse = s.reverse ++ ':' :: ':' :: q.reverse := by
      simp
    rw [lastSeg2, this, revSeg2_of _ _ (by simpa using hs), List.reverse_reverse]

theorem lastSegment_unique {p s t : Str} (h : LastSegment p s) (h' : LastSegment p t) : s = t :=
  (lastSeg2_of h).symm.trans (lastSeg2_of h')

theorem lastSegment_join (m n : Str) (hn : ':' ∉ n) : LastSegment (m ++ "::".toList ++ n) n :=
  ⟨hn, .inr ⟨m, rfl⟩⟩

theorem hasSep2_join (q s : Str) : hasSep2 (q ++ ':' :: ':' :: s) = true := by
  induction q with
  | nil => rfl
  | cons c q ih =>
    rw [List.cons_append, hasSep2.eq_def]
    split
    · rfl
    · rename_i h; rw [(List.cons.inj h).2.symm, ih]
    · rename_i h; simp at h

theorem hasSep2_iff (p : Str) : hasSep2 p = true ↔ ∃ q s, p = q ++ "::".toList ++ s := by
  constructor
  · intro h
    induction p with
    | nil => simp [hasSep2] at h
    | cons c p ih =>
      rw [hasSep2.eq_def] at h
      split at h
      · rename_i r heq
        exact ⟨[], r, by rw [heq]; rfl⟩
      · rename_i heq
        obtain ⟨q, s, hq⟩ := ih (by rw [(List.cons.inj heq).2]; exact h)
        exact ⟨c :: q, s, by rw [hq]; rfl⟩
      · cases h
  · rintro ⟨q, s, rfl⟩
    have : q ++ "::".toList ++ s = q ++ ':' :: ':' :: s := by simp
    rw [this, hasSep2_join]

theorem lastSegment_noSep {p s : Str} (h : LastSegment p s) (hp : hasSep2 p = false) : p = s := by
  obtain ⟨-, h | ⟨q, rfl⟩⟩ := h
  · exact h
  · have : q ++ "::".toList ++ s = q ++ ':' :: ':' :: s := by simp
    rw [this, hasSep2_join] at hp
    exact absurd hp (by simp)

/-! ## The map of modules -/

theorem addImport_form (c : Mode) (m : Modules) (i : Import) :
    addImport c m i =
      match form c i with
      | .direct k => addName k i.name i.alias m
      | .qualified k => addSelf k m
      | .aliased k a => addAlias k a m := by
  unfold addImport form
  rcases hm : i.module with ⟨_ | _ | _, k⟩ | ⟨k, a⟩ <;> cases c <;> rfl

/-- The entry asked for by an import is for this module. -/
def keyOf (c : Mode) (i : Import) : ItemStr :=
  match form c i with
  | .direct k => k
  | .qualified k => k
  | .aliased k _ => k

/-- What is known about the map. -/
structure ModulesOk (c : Mode) (l : List Import) (m : Modules) : Prop where
  keys : KeysIncreasing m
  names : ∀ k e, (k, e) ∈ m → Increasing e.names
  aliases : ∀ k e, (k, e) ∈ m → Increasing e.selfAliases
  key : ∀ k, k ∈ m.map Prod.fst ↔ ∃ i ∈ l, keyOf c i = k
  self : ∀ k e, (k, e) ∈ m → (e.selfImport = true ↔ ∃ i ∈ l, form c i = .qualified k)
  asAlias : ∀ k e, (k, e) ∈ m → ∀ a, a ∈ e.selfAliases ↔ ∃ i ∈ l, form c i = .aliased k a
  name : ∀ k e, (k, e) ∈ m → ∀ n a, (n, a) ∈ e.names ↔
    ∃ i ∈ l, form c i = .direct k ∧ i.name = n ∧ i.alias = a

/-- An entry that is not there yet is the default one. -/
theorem modulesOk_getD {c : Mode} {l : List Import} {m : Modules} (h : ModulesOk c l m) (k : ItemStr) :
    let e := (mapGet k m).getD .default
    Increasing e.names ∧ Increasing e.selfAliases ∧
    (e.selfImport = true ↔ ∃ i ∈ l, form c i = .qualified k) ∧
    (∀ a, a ∈ e.selfAliases ↔ ∃ i ∈ l, form c i = .aliased k a) ∧
    (∀ n a, (n, a) ∈ e.names ↔ ∃ i ∈ l, form c i = .direct k ∧ i.name = n ∧ i.alias = a) := by
  cases hg : mapGet k m with
  | some e =>
    have hm := mem_of_mapGet hg
    exact ⟨h.names k e hm, h.aliases k e hm, h.self k e hm, h.asAlias k e hm, h.name k e hm⟩
  | none =>
    have hk := (mapGet_none k m).1 hg
    rw [h.key] at hk
    have hno : ∀ i ∈ l, keyOf c i ≠ k := fun i hi e => hk ⟨i, hi, e⟩
    refine ⟨List.Pairwise.nil, List.Pairwise.nil, ?_, ?_, ?_⟩
    · simp only [Option.getD_none, Entry.default, Bool.false_eq_true, false_iff]
      rintro ⟨i, hi, e⟩
      exact hno i hi (by simp [keyOf, e])
    · intro a
      simp only [Option.getD_none, Entry.default, List.not_mem_nil, false_iff]
      rintro ⟨i, hi, e⟩
      exact hno i hi (by simp [keyOf, e])
    · intro n a
      simp only [Option.getD_none, Entry.default, List.not_mem_nil, false_iff]
      rintro ⟨i, hi, e, -⟩
      exact hno i hi (by simp [keyOf, e])

theorem modulesOk_step {c : Mode} {l : List Import} {m : Modules} (h : ModulesOk c l m) (i : Import)
    (f : Entry → Entry) (ha : addImport c m i = mapModify (keyOf c i) .default f m)
    (hn : ∀ e, Increasing e.names → Increasing (f e).names)
    (hal : ∀ e, Increasing e.selfAliases → Increasing (f e).selfAliases)
    (hs : ∀ e, (f e).selfImport = true ↔ e.selfImport = true ∨ form c i = .qualified (keyOf c i))
    (hA : ∀ e a, a ∈ (f e).selfAliases ↔ a ∈ e.selfAliases ∨ form c i = .aliased (keyOf c i) a)
    (hN : ∀ e n a, (n, a) ∈ (f e).names ↔ (n, a) ∈ e.names ∨
      (form c i = .direct (keyOf c i) ∧ i.name = n ∧ i.alias = a)) :
    ModulesOk c (l ++ [i]) (addImport c m i) := by
  rw [ha]
  have hk := keysIncreasing_mapModify (keyOf c i) Entry.default f m h.keys
  have key : ∀ k e, (k, e) ∈ mapModify (keyOf c i) Entry.default f m →
      (k = keyOf c i ∧ e = f ((mapGet k m).getD .default)) ∨ (k ≠ keyOf c i ∧ (k, e) ∈ m) := by
    intro k e hm
    have := (mem_iff_mapGet hk).1 hm
    rw [mapGet_mapModify _ _ _ _ _ h.keys] at this
    by_cases hj : k = keyOf c i
    · rw [if_pos hj] at this
      left
      subst hj
      exact ⟨rfl, (Option.some.inj this).symm⟩
    · rw [if_neg hj] at this
      exact .inr ⟨hj, mem_of_mapGet this⟩
  have hg := modulesOk_getD h
  have notq : ∀ k, k ≠ keyOf c i → form c i ≠ .qualified k ∧ (∀ a, form c i ≠ .aliased k a) ∧
      form c i ≠ .direct k := by
    intro k hne
    refine ⟨fun e => hne (by simp [keyOf, e]), fun a e => hne (by simp [keyOf, e]),
      fun e => hne (by simp [keyOf, e])⟩
  refine ⟨hk, ?_, ?_, ?_, ?_, ?_, ?_⟩
  · intro k e hm
    rcases key k e hm with ⟨-, rfl⟩ | ⟨-, hm⟩
    · exact hn _ (hg k).1
    · exact h.names k e hm
  · intro k e hm
    rcases key k e hm with ⟨-, rfl⟩ | ⟨-, hm⟩
    · exact hal _ (hg k).2.1
    · exact h.aliases k e hm
  · intro k
    rw [map_fst_mapModify, mem_setInsert, h.key]
    constructor
    · rintro (rfl | ⟨j, hj, rfl⟩)
      · exact ⟨i, by simp, rfl⟩
      · exact ⟨j, by simp [hj], rfl⟩
    · rintro ⟨j, hj, rfl⟩
      rcases List.mem_append.1 hj with hj | hj
      · exact .inr ⟨j, hj, rfl⟩
      · left
        rw [List.mem_singleton.1 hj]
  · intro k e hm
    rcases key k e hm with ⟨hk', rfl⟩ | ⟨hne, hm⟩
    · rw [hs, (hg k).2.2.1, ← hk']
      constructor
      · rintro (⟨j, hj, e⟩ | e)
        · exact ⟨j, by simp [hj], e⟩
        · exact ⟨i, by simp, e⟩
      · rintro ⟨j, hj, e⟩
        rcases List.mem_append.1 hj with hj | hj
        · exact .inl ⟨j, hj, e⟩
        · rw [List.mem_singleton.1 hj] at e; exact .inr e
    · rw [h.self k e hm]
      constructor
      · rintro ⟨j, hj, e⟩; exact ⟨j, by simp [hj], e⟩
      · rintro ⟨j, hj, e⟩
        rcases List.mem_append.1 hj with hj | hj
        · exact ⟨j, hj, e⟩
        · rw [List.mem_singleton.1 hj] at e; exact absurd e (notq k hne).1
  · intro k e hm a
    rcases key k e hm with ⟨hk', rfl⟩ | ⟨hne, hm⟩
    · rw [hA, (hg k).2.2.2.1, ← hk']
      constructor
      · rintro (⟨j, hj, e⟩ | e)
        · exact ⟨j, by simp [hj], e⟩
        · exact ⟨i, by simp, e⟩
      · rintro ⟨j, hj, e⟩
        rcases List.mem_append.1 hj with hj | hj
        · exact .inl ⟨j, hj, e⟩
        · rw [List.mem_singleton.1 hj] at e; exact .inr e
    · rw [h.asAlias k e hm]
      constructor
      · rintro ⟨j, hj, e⟩; exact ⟨j, by simp [hj], e⟩
      · rintro ⟨j, hj, e⟩
        rcases List.mem_append.1 hj with hj | hj
        · exact ⟨j, hj, e⟩
        · rw [List.mem_singleton.1 hj] at e; exact absurd e ((notq k hne).2.1 a)
  · intro k e hm n a
    rcases key k e hm with ⟨hk', rfl⟩ | ⟨hne, hm⟩
    · rw [hN, (hg k).2.2.2.2, ← hk']
      constructor
      · rintro (⟨j, hj, e⟩ | e)
        · exact ⟨j, by simp [hj], e⟩
        · exact ⟨i, by simp, e⟩
      · rintro ⟨j, hj, e⟩
        rcases List.mem_append.1 hj with hj | hj
        · exact .inl ⟨j, hj, e⟩
        · rw [List.mem_singleton.1 hj] at e; exact .inr e
    · rw [h.name k e hm]
      constructor
      · rintro ⟨j, hj, e⟩; exact ⟨j, by simp [hj], e⟩
      · rintro ⟨j, hj, e⟩
        rcases List.mem_append.1 hj with hj | hj
        · exact ⟨j, hj, e⟩
        · rw [List.mem_singleton.1 hj] at e; exact absurd e.1 (notq k hne).2.2

theorem modulesOk_add {c : Mode} {l : List Import} {m : Modules} (h : ModulesOk c l m) (i : Import) :
    ModulesOk c (l ++ [i]) (addImport c m i) := by
  cases hf : form c i with
  | direct k =>
    have hk : keyOf c i = k := by simp [keyOf, hf]
    refine modulesOk_step h i (fun e => { e with names := setInsert (i.name, i.alias) e.names }) ?_
      (fun e he => increasing_setInsert _ _ he) (fun e he => he) ?_ ?_ ?_
    · rw [addImport_form, hf, hk]; rfl
    · intro e; simp [hf]
    · intro e a; simp [hf]
    · intro e n a
      rw [mem_setInsert, hf, hk]
      simp only [Prod.mk.injEq, true_and]
      constructor
      · rintro (⟨rfl, rfl⟩ | h)
        · exact .inr ⟨rfl, rfl⟩
        · exact .inl h
      · rintro (h | ⟨rfl, rfl⟩)
        · exact .inr h
        · exact .inl ⟨rfl, rfl⟩
  | qualified k =>
    have hk : keyOf c i = k := by simp [keyOf, hf]
    refine modulesOk_step h i (fun e => { e with selfImport := true }) ?_
      (fun e he => he) (fun e he => he) ?_ ?_ ?_
    · rw [addImport_form, hf, hk]; rfl
    · intro e; simp [hf, hk]
    · intro e a; simp [hf]
    · intro e n a; simp [hf]
  | aliased k a =>
    have hk : keyOf c i = k := by simp [keyOf, hf]
    refine modulesOk_step h i (fun e => { e with selfAliases := setInsert a e.selfAliases }) ?_
      (fun e he => he) (fun e he => increasing_setInsert _ _ he) ?_ ?_ ?_
    · rw [addImport_form, hf, hk]; rfl
    · intro e; simp [hf]
    · intro e b
      rw [mem_setInsert, hf, hk]
      simp only [Form.aliased.injEq, true_and]
      constructor
      · rintro (rfl | h)
        · exact .inr rfl
        · exact .inl h
      · rintro (h | rfl)
        · exact .inr h
        · exact .inl rfl
    · intro e n a; simp [hf]

theorem modulesOk (c : Mode) (l : List Import) : ModulesOk c l (modules c l) := by
  have key : ∀ (l p : List Import) (m : Modules), ModulesOk c p m →
      ModulesOk c (p ++ l) (l.foldl (addImport c) m) := by
    intro l
    induction l with
    | nil => intro p m h; simpa using h
    | cons i l ih =>
      intro p m h
      have := ih (p ++ [i]) _ (modulesOk_add h i)
      simpa using this
  have h0 : ModulesOk c [] [] := ⟨List.Pairwise.nil, by simp, by simp, by simp, by simp, by simp, by simp⟩
  exact key l [] [] h0

/-- The map depends only on the set of imports. -/
theorem modules_congr (c : Mode) {l l' : List Import} (h : ∀ i, i ∈ l ↔ i ∈ l') :
    modules c l = modules c l' := by
  have h1 := modulesOk c l
  have h2 := modulesOk c l'
  have hkeys : ∀ k, k ∈ (modules c l).map Prod.fst ↔ k ∈ (modules c l').map Prod.fst := by
    intro k; rw [h1.key, h2.key]; simp only [h]
  refine map_ext h1.keys h2.keys (fun k => ?_)
  cases hg : mapGet k (modules c l) with
  | none =>
    rw [mapGet_none, hkeys, ← mapGet_none] at hg
    exact hg.symm
  | some e =>
    cases hg' : mapGet k (modules c l') with
    | none =>
      rw [mapGet_none, ← hkeys, ← mapGet_none, hg] at hg'
      cases hg'
    | some e' =>
      have m1 := mem_of_mapGet hg
      have m2 := mem_of_mapGet hg'
      have hs : e.selfImport = e'.selfImport := by
        rw [Bool.eq_iff_iff, h1.self k e m1, h2.self k e' m2]
        simp only [h]
      have ha : e.selfAliases = e'.selfAliases := by
        refine (h1.aliases k e m1).ext (h2.aliases k e' m2) (fun a => ?_)
        rw [h1.asAlias k e m1, h2.asAlias k e' m2]
        simp only [h]
      have hn : e.names = e'.names := by
        refine (h1.names k e m1).ext (h2.names k e' m2) (fun p => ?_)
        obtain ⟨n, a⟩ := p
        rw [h1.name k e m1, h2.name k e' m2]
        simp only [h]
      cases e; cases e'
      simp_all

/-! ## The declarations -/

/-- A member of a group. -/
def RItem.member : RItem → Str × Option Str
  | .self => ("self".toList, none)
  | .selfAlias a => ("self".toList, some a.text)
  | .name n a => (n.text, a.map ItemStr.text)

/-- The declaration written for a module. -/
def useOf (m : Str) : List RItem → Use
  | [.self] => .single m none
  | [.selfAlias a] => .single m (some a.text)
  | [.name n a] => .single (m ++ "::".toList ++ n.text) (a.map ItemStr.text)
  | r => .group m (r.map RItem.member)

/-- All declarations. -/
def uses (m : Modules) : List Use :=
  m.filterMap (fun e => match e.2.iter e.1 with
    | [] => none
    | r => some (useOf e.1.text r))

theorem bits_asText {ι : Type} (L : Lang ι) (r : RItem) :
    bitsText L r.bits = asText r.member.1 r.member.2 := by
  rcases r with _ | a | ⟨n, _ | a⟩ <;>
    simp [bitsText, RItem.bits, RItem.member, asText, Bit.text, word, ItemStr.text]

theorem intercalate_cons (sep a : Str) (l : List Str) :
    sep.intercalate (a :: l) = a ++ l.flatMap (fun x => sep ++ x) := by
  induction l generalizing a with
  | nil => simp [List.intercalate]
  | cons b l ih =>
    have := ih b
    simp only [List.intercalate, List.intersperse_cons_cons, List.flatten_cons, List.flatMap_cons] at this ⊢
    rw [this]
    simp

theorem lineBits_text {ι : Type} (L : Lang ι) (m : ItemStr) (r : List RItem) (hr : r ≠ []) :
    bitsText L (lineBits m r) = (useOf m.text r).text := by
  have hg : ∀ first rest, bitsText L ([word "use", .space, .lit m, word "::{"] ++ RItem.bits first ++
      rest.flatMap (fun i => word "," :: .space :: i.bits) ++ [word "};"]) =
      (Use.group m.text ((first :: rest).map RItem.member)).text := by
    intro first rest
    have hrest : bitsText L (rest.flatMap (fun i => word "," :: .space :: RItem.bits i)) =
        rest.flatMap (fun i => ", ".toList ++ asText i.member.1 i.member.2) := by
      induction rest with
      | nil => rfl
      | cons x rest ih =>
        have := bits_asText L x
        simp only [bitsText, List.flatMap_cons, List.flatMap_append, List.cons_append] at this ih ⊢
        rw [ih, this]
        simp [Bit.text, word, ItemStr.text]
    have hfirst := bits_asText L first
    simp only [bitsText, List.flatMap_append] at hrest hfirst ⊢
    rw [hrest, hfirst]
    simp only [Use.text, List.map_cons, List.map_map]
    rw [intercalate_cons]
    simp [Bit.text, word, ItemStr.text, List.flatMap_map]
  rcases r with _ | ⟨first, _ | ⟨second, rest⟩⟩
  · exact absurd rfl hr
  · rcases first with _ | a | ⟨n, _ | a⟩ <;>
      simp [bitsText, lineBits, useOf, Use.text, asText, Bit.text, word, ItemStr.text]
  · have h1 : lineBits m (first :: second :: rest) = [word "use", .space, .lit m, word "::{"] ++
        first.bits ++ (second :: rest).flatMap (fun i => word "," :: .space :: i.bits) ++ [word "};"] := by
      cases first <;> simp [lineBits]
    have h2 : useOf m.text (first :: second :: rest) =
        .group m.text ((first :: second :: rest).map RItem.member) := by
      cases first <;> rfl
    rw [h1, h2, hg]

theorem spaced_ritem (r : RItem) (b : Bool) (rest : List Bit) :
    spaced b (r.bits ++ rest) = spaced false rest := by
  rcases r with _ | a | ⟨n, _ | a⟩ <;> simp [RItem.bits, spaced, word]

theorem lineBits_ok (m : ItemStr) (r : List RItem) (hr : r ≠ []) : LineOk (lineBits m r) := by
  rcases r with _ | ⟨first, _ | ⟨second, rest⟩⟩
  · exact absurd rfl hr
  · rcases first with _ | a | ⟨n, _ | a⟩
    · exact ⟨by simp [lineBits, spaced, word], ⟨_, _, rfl, rfl⟩, ⟨[word "use", .space, .lit m], _, rfl, rfl⟩⟩
    · exact ⟨by simp [lineBits, spaced, word], ⟨_, _, rfl, rfl⟩,
        ⟨[word "use", .space, .lit m, .space, word "as", .space, .lit a], _, rfl, rfl⟩⟩
    · exact ⟨by simp [lineBits, spaced, word], ⟨_, _, rfl, rfl⟩,
        ⟨[word "use", .space, .lit m, word "::", .lit n], _, rfl, rfl⟩⟩
    · exact ⟨by simp [lineBits, spaced, word], ⟨_, _, rfl, rfl⟩,
        ⟨[word "use", .space, .lit m, word "::", .lit n, .space, word "as", .space, .lit a], _, rfl, rfl⟩⟩
  · have h1 : lineBits m (first :: second :: rest) = [word "use", .space, .lit m, word "::{"] ++
        (first.bits ++ ((second :: rest).flatMap (fun i => word "," :: .space :: i.bits) ++ [word "};"])) := by
      cases first <;> simp [lineBits]
    rw [h1]
    refine ⟨?_, ⟨_, _, rfl, rfl⟩, ⟨_, _, (by rw [← List.append_assoc, ← List.append_assoc]), rfl⟩⟩
    have hrest : ∀ l : List RItem, spaced false
        (l.flatMap (fun i => word "," :: .space :: i.bits) ++ [word "};"]) = true := by
      intro l
      induction l with
      | nil => rfl
      | cons x l ih =>
        simp only [List.flatMap_cons, List.cons_append, List.append_assoc]
        have : spaced false (word "," :: Bit.space :: (x.bits ++
          (l.flatMap (fun i => word "," :: .space :: i.bits) ++ [word "};"]))) =
          spaced true (x.bits ++
            (l.flatMap (fun i => word "," :: .space :: i.bits) ++ [word "};"])) := rfl
        rw [this, spaced_ritem, ih]
    have : spaced true ([word "use", .space, .lit m, word "::{"] ++
        (first.bits ++ ((second :: rest).flatMap (fun i => word "," :: .space :: i.bits) ++ [word "};"]))) =
      spaced false
        (first.bits ++ ((second :: rest).flatMap (fun i => word "," :: .space :: i.bits) ++ [word "};"])) := rfl
    rw [this, spaced_ritem, hrest]

/-- A declaration ends with a semicolon. -/
theorem lineBits_last (m : ItemStr) (r : List RItem) (hr : r ≠ []) :
    ∃ q b, lineBits m r = q ++ [b] ∧ b.shows = true := by
  rcases r with _ | ⟨first, _ | ⟨second, rest⟩⟩
  · exact absurd rfl hr
  · rcases first with _ | a | ⟨n, _ | a⟩
    · exact ⟨[word "use", .space, .lit m], _, rfl, rfl⟩
    · exact ⟨[word "use", .space, .lit m, .space, word "as", .space, .lit a], _, rfl, rfl⟩
    · exact ⟨[word "use", .space, .lit m, word "::", .lit n], _, rfl, rfl⟩
    · exact ⟨[word "use", .space, .lit m, word "::", .lit n, .space, word "as", .space, .lit a], _, rfl, rfl⟩
  · refine ⟨[word "use", .space, .lit m, word "::{"] ++ (first.bits ++
      (second :: rest).flatMap (fun i => word "," :: .space :: i.bits)), word "};", ?_, rfl⟩
    cases first <;> simp [lineBits]

/-- The lines, before rendering. -/
def useLines (m : Modules) : List (List Bit) :=
  m.filterMap (fun e => match e.2.iter e.1 with
    | [] => none
    | r => some (lineBits e.1 r))

theorem useLines_ok (m : Modules) : ∀ l ∈ useLines m, LineOk l := by
  intro l hl
  simp only [useLines, List.mem_filterMap] at hl
  obtain ⟨e, -, he⟩ := hl
  split at he
  · cases he
  · rename_i r hr
    cases he
    exact lineBits_ok _ _ (by intro h; exact hr h)

theorem useLines_text {ι : Type} (L : Lang ι) (m : Modules) :
    (useLines m).map (lineText L) = (uses m).map Use.text := by
  simp only [useLines, uses, List.map_filterMap]
  congr 1
  funext e
  split
  · rfl
  · rename_i r hr
    simp only [Option.map_some]
    rw [lineText_of_last L (lineBits_last e.1 _ (by intro h; exact hr h)),
      lineBits_text L e.1 _ (by intro h; exact hr h)]

theorem importCalls_eq (c : Mode) (l : List Import) :
    importCalls c l = (useLines (modules c l)).flatMap (fun l => .push :: bitItems l) ++
      if (useLines (modules c l)).isEmpty then [] else [.line] := rfl

/-- The lines of a Rust file. -/
theorem file_eq (c : Mode) (cfg : Config) (t : Tokens Import)
    (hb : losesSpace (lang c).langItem t.items = false) :
    toFileVec (lang c) cfg (file c t) =
      (toVec (lang c) cfg t.items).map
        (fileLines ((uses (modules c t.walkImports)).map Use.text)) := by
  have hd : Delim (lang c) := delim_base _ _
  have h := file_before (lang c) hd cfg (useLines (modules c t.walkImports)) (useLines_ok _) t.items hb
  rw [useLines_text] at h
  unfold file header
  rw [importCalls_eq]
  by_cases he : (useLines (modules c t.walkImports)).isEmpty = true
  · have hn : useLines (modules c t.walkImports) = [] := by simpa using he
    have hu : uses (modules c t.walkImports) = [] := by
      have := useLines_text (lang c) (modules c t.walkImports)
      rw [hn] at this
      simpa using this.symm
    rw [hn, hu]
    exact file_none (lang c) cfg t.items
  · rw [if_neg he]
    exact h

/-! ## Scope -/

/-- What one part of a declaration binds. -/
def RItem.Binds (m : Str) : RItem → Str → Str → Prop
  | .self, n, f => f = m ∧ LastSegment m n
  | .selfAlias a, n, f => f = m ∧ n = a.text
  | .name x a, n, f => f = m ++ "::".toList ++ x.text ∧ n = (a.getD x).text

theorem useOf_binds (m : Str) (r : List RItem) (hr : r ≠ [])
    (hn : ∀ x a, RItem.name x a ∈ r → ':' ∉ x.text ∧ x.text ≠ "self".toList) (n f : Str) :
    (useOf m r).Binds n f ↔ ∃ x ∈ r, x.Binds m n f := by
  have hg : (Use.group m (r.map RItem.member)).Binds n f ↔ ∃ x ∈ r, x.Binds m n f := by
    simp only [Use.Binds, List.mem_map]
    constructor
    · rintro ⟨_, ⟨x, hx, rfl⟩, h⟩
      refine ⟨x, hx, ?_⟩
      rcases x with _ | a | ⟨y, a⟩
      · exact h
      · exact h
      · have := (hn y a hx).2
        replace h := (iff_of_eq (if_neg (show (RItem.name y a).member.1 ≠ _ from this))).mp h
        refine ⟨h.1, ?_⟩
        rw [h.2]
        cases a <;> rfl
    · rintro ⟨x, hx, h⟩
      refine ⟨_, ⟨x, hx, rfl⟩, ?_⟩
      rcases x with _ | a | ⟨y, a⟩
      · exact h
      · exact h
      · have := (hn y a hx).2
        refine (iff_of_eq (if_neg (show (RItem.name y a).member.1 ≠ _ from this))).mpr ⟨h.1, ?_⟩
        rw [h.2]
        cases a <;> rfl
  rcases r with _ | ⟨first, _ | ⟨second, rest⟩⟩
  · exact absurd rfl hr
  · simp only [List.mem_singleton, exists_eq_left]
    rcases first with _ | a | ⟨y, _ | a⟩
    · rfl
    · rfl
    · have hy := (hn y none (by simp)).1
      simp only [useOf, Option.map_none, Use.Binds, RItem.Binds, Option.getD_none]
      constructor
      · rintro ⟨h1, h2⟩
        exact ⟨h1, lastSegment_unique h2 (lastSegment_join _ _ hy)⟩
      · rintro ⟨h1, rfl⟩
        exact ⟨h1, lastSegment_join _ _ hy⟩
    · rfl
  · have : useOf m (first :: second :: rest) =
        .group m ((first :: second :: rest).map RItem.member) := by
      cases first <;> rfl
    rw [this]
    exact hg

theorem mem_iter (e : Entry) (m : ItemStr) (x : RItem) :
    x ∈ e.iter m ↔ (x = .self ∧ e.selfImport = true ∧ hasSep2 m.text = true) ∨
      (∃ a ∈ e.selfAliases, x = .selfAlias a) ∨ ∃ p ∈ e.names, x = .name p.1 p.2 := by
  simp only [Entry.iter, List.mem_append, List.mem_map]
  constructor
  · rintro ((h | ⟨a, ha, rfl⟩) | ⟨p, hp, rfl⟩)
    · split at h
      · rename_i hc
        simp only [Bool.and_eq_true] at hc
        exact .inl ⟨by simpa using h, hc⟩
      · simp at h
    · exact .inr (.inl ⟨a, ha, rfl⟩)
    · exact .inr (.inr ⟨p, hp, rfl⟩)
  · rintro (⟨rfl, h1, h2⟩ | ⟨a, ha, rfl⟩ | ⟨p, hp, rfl⟩)
    · simp [h1, h2]
    · exact .inl (.inr ⟨a, ha, rfl⟩)
    · exact .inr ⟨p, hp, rfl⟩

/-- The names bound by the declarations are those claimed by imports, except
that a top level module needs no declaration. -/
theorem bound_iff (c : Mode) (l : List Import) (hp : ∀ i ∈ l, Proper i) (n f : Str) :
    Bound (uses (modules c l)) n f ↔
      ∃ i ∈ l, Claims c i n f ∧ ∀ m, form c i = .qualified m → hasSep2 m.text = true := by
  have hm := modulesOk c l
  have hmod : ∀ i, ∀ k, form c i = .direct k → moduleOf i = k := by
    intro i k h
    unfold form at h
    unfold moduleOf
    rcases hi : i.module with ⟨md, m⟩ | ⟨m, a⟩
    · rw [hi] at h
      simp only at h ⊢
      cases hg : md.getD c <;> rw [hg] at h <;> cases h
      rfl
    · rw [hi] at h
      cases h
  have hnames : ∀ k e, (k, e) ∈ modules c l → ∀ x a, RItem.name x a ∈ e.iter k →
      ':' ∉ x.text ∧ x.text ≠ "self".toList := by
    intro k e he x a hx
    rw [mem_iter] at hx
    rcases hx with ⟨h, -⟩ | ⟨_, -, h⟩ | ⟨p, hpm, h⟩
    · cases h
    · cases h
    · cases h
      obtain ⟨i, hi, -, hin, -⟩ := (hm.name k e he p.1 p.2).1 hpm
      rw [← hin]
      exact ⟨(hp i hi).name, (hp i hi).notSelf⟩
  constructor
  · rintro ⟨u, hu, hb⟩
    simp only [uses, List.mem_filterMap] at hu
    obtain ⟨⟨k, e⟩, he, hu⟩ := hu
    split at hu
    · cases hu
    · rename_i hr
      cases hu
      rw [useOf_binds _ _ (fun h => hr h) (hnames k e he)] at hb
      obtain ⟨x, hx, hb⟩ := hb
      rw [mem_iter] at hx
      rcases hx with ⟨rfl, h1, h2⟩ | ⟨a, ha, rfl⟩ | ⟨p, hpm, rfl⟩
      · obtain ⟨i, hi, hf⟩ := (hm.self k e he).1 h1
        refine ⟨i, hi, ?_, ?_⟩
        · simp only [Claims, hf]
          exact ⟨hb.2, hb.1⟩
        · intro m hm'
          rw [hf] at hm'
          cases hm'
          exact h2
      · obtain ⟨i, hi, hf⟩ := (hm.asAlias k e he a).1 ha
        refine ⟨i, hi, ?_, ?_⟩
        · simp only [Claims, hf]
          exact ⟨hb.2, hb.1⟩
        · intro m hm'
          rw [hf] at hm'
          cases hm'
      · obtain ⟨i, hi, hf, hin, hia⟩ := (hm.name k e he p.1 p.2).1 hpm
        refine ⟨i, hi, ?_, ?_⟩
        · simp only [Claims, hf, target, hmod i k hf]
          rw [hin, hia]
          exact ⟨hb.2, hb.1⟩
        · intro m hm'
          rw [hf] at hm'
          cases hm'
  · rintro ⟨i, hi, hc, hq⟩
    have hkey := (hm.key (keyOf c i)).2 ⟨i, hi, rfl⟩
    obtain ⟨⟨k, e⟩, he, hk⟩ := List.mem_map.1 hkey
    simp only at hk
    have hx : ∃ x ∈ e.iter k, x.Binds k.text n f := by
      unfold Claims at hc
      cases hf : form c i with
      | direct k' =>
        have : k = k' := by rw [hk]; simp [keyOf, hf]
        subst this
        simp only [hf, target, hmod i k hf] at hc
        exact ⟨.name i.name i.alias, (mem_iter ..).2 (.inr (.inr ⟨(i.name, i.alias),
          (hm.name k e he _ _).2 ⟨i, hi, hf, rfl, rfl⟩, rfl⟩)), hc.2, hc.1⟩
      | qualified k' =>
        have : k = k' := by rw [hk]; simp [keyOf, hf]
        subst this
        simp only [hf] at hc
        exact ⟨.self, (mem_iter ..).2 (.inl ⟨rfl, (hm.self k e he).2 ⟨i, hi, hf⟩, hq k hf⟩), hc.2, hc.1⟩
      | aliased k' a =>
        have : k = k' := by rw [hk]; simp [keyOf, hf]
        subst this
        simp only [hf] at hc
        exact ⟨.selfAlias a, (mem_iter ..).2 (.inr (.inl ⟨a,
          (hm.asAlias k e he a).2 ⟨i, hi, hf⟩, rfl⟩)), hc.2, hc.1⟩
    have hne : e.iter k ≠ [] := by
      obtain ⟨x, hx, -⟩ := hx
      intro h
      rw [h] at hx
      simp at hx
    refine ⟨useOf k.text (e.iter k), ?_, ?_⟩
    · simp only [uses, List.mem_filterMap]
      refine ⟨(k, e), he, ?_⟩
      split
      · rename_i h; exact absurd h hne
      · rfl
    · rw [useOf_binds _ _ hne (hnames k e he)]
      exact hx

theorem format_form (c : Mode) (i : Import) :
    i.format c =
      match form c i with
      | .direct _ => [(i.alias.getD i.name).text]
      | .qualified m => [lastSeg2 m.text, "::".toList, i.name.text]
      | .aliased _ a => [a.text, "::".toList, i.name.text] := by
  obtain ⟨md, nm, al⟩ := i
  rcases md with ⟨_ | _ | _, k⟩ | ⟨k, a⟩ <;> cases c <;> cases al <;> rfl

theorem form_module (c : Mode) (i : Import) :
    (∀ m, form c i = .qualified m → moduleOf i = m) ∧
    (∀ m a, form c i = .aliased m a → moduleOf i = m ∧ i.module = .aliased m a) := by
  obtain ⟨md, nm, al⟩ := i
  rcases md with ⟨_ | _ | _, k⟩ | ⟨k, a⟩ <;> cases c <;> simp [form, moduleOf]

theorem resolves (c : Mode) (l : List Import) (hp : ∀ i ∈ l, Proper i)
    (i : Import) (hi : i ∈ l)
    (hc : ∀ j ∈ l, (∀ m, form c j = .qualified m → hasSep2 m.text = true) →
      ∀ n f f', Claims c i n f → Claims c j n f' → f = f') :
    Resolves (uses (modules c l)) (i.format c).flatten (target i) := by
  have hpi := hp i hi
  have uniq : ∀ n f, Claims c i n f → ∀ p', Bound (uses (modules c l)) n p' → p' = f := by
    intro n f h p' hb
    obtain ⟨j, hj, hjc, hn⟩ := (bound_iff c l hp n p').1 hb
    exact (hc j hj hn n f p' h hjc).symm
  rw [format_form]
  cases hf : form c i with
  | direct m =>
    have hcl : Claims c i (i.alias.getD i.name).text (target i) := by simp [Claims, hf]
    refine ⟨(i.alias.getD i.name).text, [], by simp, ?_, .inl rfl, .inl ⟨target i, ?_, by simp, uniq _ _ hcl⟩⟩
    · cases ha : i.alias with
      | none => simpa using hpi.name
      | some a => simpa using hpi.alias a ha
    · exact (bound_iff c l hp _ _).2 ⟨i, hi, hcl, by simp [hf]⟩
  | qualified m =>
    have hmod := (form_module c i).1 m hf
    obtain ⟨s, hs⟩ := hpi.module
    rw [hmod] at hs
    simp only [lastSeg2_of hs]
    have hcl : Claims c i s m.text := by simp [Claims, hf, hs]
    refine ⟨s, "::".toList ++ i.name.text, by simp, hs.1, .inr ⟨_, rfl⟩, ?_⟩
    by_cases hb : ∃ p, Bound (uses (modules c l)) s p
    · obtain ⟨p, hb⟩ := hb
      have := uniq _ _ hcl p hb
      subst this
      exact .inl ⟨_, hb, by simp [target, hmod], uniq _ _ hcl⟩
    · refine .inr ⟨fun p h => hb ⟨p, h⟩, ?_⟩
      have hsep : hasSep2 m.text = false := by
        cases h : hasSep2 m.text with
        | false => rfl
        | true =>
          refine absurd ⟨m.text, (bound_iff c l hp _ _).2 ⟨i, hi, hcl, ?_⟩⟩ hb
          intro m' hm'
          rw [hf] at hm'
          cases hm'
          exact h
      have := lastSegment_noSep hs hsep
      simp [target, hmod, this]
  | aliased m a =>
    obtain ⟨hmod, hmod'⟩ := (form_module c i).2 m a hf
    have hcl : Claims c i a.text m.text := by simp [Claims, hf]
    refine ⟨a.text, "::".toList ++ i.name.text, by simp, hpi.moduleAlias m a hmod', .inr ⟨_, rfl⟩,
      .inl ⟨m.text, ?_, by simp [target, hmod], uniq _ _ hcl⟩⟩
    exact (bound_iff c l hp _ _).2 ⟨i, hi, hcl, by simp [hf]⟩

theorem segment_unique {s s' r r' : Str} (hs : ':' ∉ s) (hs' : ':' ∉ s')
    (hr : r = [] ∨ ∃ x, r = "::".toList ++ x) (hr' : r' = [] ∨ ∃ x, r' = "::".toList ++ x)
    (h : s ++ r = s' ++ r') : s = s' ∧ r = r' := by
  induction s generalizing s' with
  | nil =>
    cases s' with
    | nil => exact ⟨rfl, h⟩
    | cons c s' =>
      exfalso
      rcases hr with rfl | ⟨x, rfl⟩
      · simp at h
      · have := (List.cons.inj h).1
        simp at hs'
        exact hs'.1 this
  | cons c s ih =>
    cases s' with
    | nil =>
      exfalso
      rcases hr' with rfl | ⟨x, rfl⟩
      · simp at h
      · have := (List.cons.inj h).1
        simp at hs
        exact hs.1 this.symm
    | cons d s' =>
      simp only [List.mem_cons, not_or] at hs hs'
      obtain ⟨h1, h2⟩ := List.cons.inj h
      obtain ⟨h3, h4⟩ := ih hs.2 hs'.2 h2
      exact ⟨by rw [h1, h3], h4⟩

/-- An import resolves iff nothing that is declared claims its local name for
something else. -/
theorem resolves_iff (c : Mode) (l : List Import) (hp : ∀ i ∈ l, Proper i) (i : Import) (hi : i ∈ l) :
    Resolves (uses (modules c l)) (i.format c).flatten (target i) ↔
      ∀ j ∈ l, (∀ m, form c j = .qualified m → hasSep2 m.text = true) →
        ∀ n f f', Claims c i n f → Claims c j n f' → f = f' := by
  refine ⟨?_, resolves c l hp i hi⟩
  rintro ⟨seg, rest, href, hseg, hrest, h⟩ j hj hn n f f' hcl hcl'
  have hpi := hp i hi
  have hbj := (bound_iff c l hp n f').2 ⟨j, hj, hcl', hn⟩
  -- The local name, and what follows it.
  have key : ∃ tail, (tail = [] ∨ ∃ x, tail = "::".toList ++ x) ∧ ':' ∉ n ∧
      (i.format c).flatten = n ++ tail ∧ target i = f ++ tail := by
    rw [format_form]
    cases hf : form c i with
    | direct m =>
      simp only [Claims, hf] at hcl
      obtain ⟨rfl, rfl⟩ := hcl
      refine ⟨[], .inl rfl, ?_, by simp, by simp⟩
      cases ha : i.alias with
      | none => simpa using hpi.name
      | some a => simpa using hpi.alias a ha
    | qualified m =>
      simp only [Claims, hf] at hcl
      obtain ⟨hs, rfl⟩ := hcl
      refine ⟨"::".toList ++ i.name.text, .inr ⟨_, rfl⟩, hs.1, by simp [lastSeg2_of hs], ?_⟩
      simp [target, (form_module c i).1 m hf]
    | aliased m a =>
      simp only [Claims, hf] at hcl
      obtain ⟨rfl, rfl⟩ := hcl
      obtain ⟨hmod, hmod'⟩ := (form_module c i).2 m a hf
      exact ⟨"::".toList ++ i.name.text, .inr ⟨_, rfl⟩, hpi.moduleAlias m a hmod', by simp,
        by simp [target, hmod]⟩
  obtain ⟨tail, ht, hnc, e1, e2⟩ := key
  obtain ⟨rfl, rfl⟩ := segment_unique hnc hseg ht hrest (e1.symm.trans href)
  rcases h with ⟨p, -, hfull, hu⟩ | ⟨hno, -⟩
  · rw [hu f' hbj]
    rw [e2] at hfull
    exact List.append_cancel_right hfull
  · exact absurd hbj (hno f')

/-! ## No repetition -/

/-- A part of a declaration, written out. -/
def RItem.part (m : Str) : RItem → Str × Option Str
  | .self => (m, none)
  | .selfAlias a => (m, some a.text)
  | .name n a => (m ++ "::".toList ++ n.text, a.map ItemStr.text)

theorem useOf_parts (m : Str) (r : List RItem)
    (hn : ∀ x a, RItem.name x a ∈ r → x.text ≠ "self".toList) (hr : r ≠ []) :
    (useOf m r).parts = r.map (RItem.part m) := by
  have hg : (Use.group m (r.map RItem.member)).parts = r.map (RItem.part m) := by
    simp only [Use.parts, List.map_map]
    refine List.map_congr_left (fun x hx => ?_)
    rcases x with _ | a | ⟨n, a⟩
    · rfl
    · rfl
    · exact if_neg (hn n a hx)
  rcases r with _ | ⟨first, _ | ⟨second, rest⟩⟩
  · exact absurd rfl hr
  · rcases first with _ | a | ⟨y, a⟩ <;> rfl
  · have : useOf m (first :: second :: rest) =
        .group m ((first :: second :: rest).map RItem.member) := by
      cases first <;> rfl
    rw [this]
    exact hg

/-- A declaration is a group for its module or a single part. -/
theorem useOf_cases (m : Str) (r : List RItem) (hr : r ≠ []) :
    (∃ x, r = [x] ∧ useOf m r = .single (x.part m).1 (x.part m).2) ∨
      ∃ ms, useOf m r = .group m ms := by
  rcases r with _ | ⟨first, _ | ⟨second, rest⟩⟩
  · exact absurd rfl hr
  · exact .inl ⟨first, rfl, by rcases first with _ | a | ⟨y, a⟩ <;> rfl⟩
  · exact .inr ⟨(first :: second :: rest).map RItem.member, by cases first <;> rfl⟩

theorem mem_strs {c : Mode} {i : Import} :
    i.name ∈ strs i ∧ (∀ a, i.alias = some a → a ∈ strs i) ∧ moduleOf i ∈ strs i ∧
      (∀ m, form c i = .direct m → moduleOf i = m) ∧
      (∀ m, form c i = .qualified m → moduleOf i = m) ∧
      ∀ m a, form c i = .aliased m a → moduleOf i = m ∧ a ∈ strs i := by
  obtain ⟨md, nm, al⟩ := i
  refine ⟨by simp [strs], fun a h => by simp [strs, show al = some a from h], ?_, ?_, ?_, ?_⟩
  · cases md <;> simp [strs, moduleOf]
  · rcases md with ⟨_ | _ | _, k⟩ | ⟨k, a⟩ <;> cases c <;> simp [form, moduleOf]
  · rcases md with ⟨_ | _ | _, k⟩ | ⟨k, a⟩ <;> cases c <;> simp [form, moduleOf]
  · rcases md with ⟨_ | _ | _, k⟩ | ⟨k, b⟩ <;> cases c <;> simp [form, moduleOf, strs]
    all_goals (intro m a h; rintro rfl; simp [h])

/-- Where the entries of the map come from. -/
theorem iter_source (c : Mode) (l : List Import) {k : ItemStr} {e : Entry}
    (he : (k, e) ∈ modules c l) {x : RItem} (hx : x ∈ e.iter k) :
    ∃ i ∈ l, moduleOf i = k ∧ x.part k.text = part c i ∧
      match x with
      | .self => form c i = .qualified k
      | .selfAlias a => form c i = .aliased k a
      | .name n a => form c i = .direct k ∧ i.name = n ∧ i.alias = a := by
  have hm := modulesOk c l
  rw [mem_iter] at hx
  rcases hx with ⟨rfl, h1, h2⟩ | ⟨a, ha, rfl⟩ | ⟨⟨n, a⟩, hpm, rfl⟩
  · obtain ⟨i, hi, hf⟩ := (hm.self k e he).1 h1
    exact ⟨i, hi, mem_strs.2.2.2.2.1 k hf, by simp [part, hf, RItem.part], hf⟩
  · obtain ⟨i, hi, hf⟩ := (hm.asAlias k e he a).1 ha
    exact ⟨i, hi, (mem_strs.2.2.2.2.2 k a hf).1, by simp [part, hf, RItem.part], hf⟩
  · obtain ⟨i, hi, hf, hin, hia⟩ := (hm.name k e he n a).1 hpm
    have := mem_strs.2.2.2.1 k hf
    exact ⟨i, hi, this, by simp [part, hf, RItem.part, target, this, hin, hia], hf, hin, hia⟩

theorem part_ne (c : Mode) (l : List Import) (hp : ∀ i ∈ l, Proper i) (hu : Uniform strs l)
    (ha : Apart c l) {k k' : ItemStr} {e e' : Entry} (he : (k, e) ∈ modules c l)
    (he' : (k', e') ∈ modules c l) {x x' : RItem} (hx : x ∈ e.iter k) (hx' : x' ∈ e'.iter k')
    (h : x.part k.text = x'.part k'.text) : k = k' ∧ x = x' := by
  obtain ⟨i, hi, hmi, -, hxi⟩ := iter_source c l he hx
  obtain ⟨j, hj, hmj, -, hxj⟩ := iter_source c l he' hx'
  have hk : k.text = k'.text → k = k' := fun h => by
    have := hu i hi j hj (moduleOf i) (mem_strs (c := c)).2.2.1 (moduleOf j) (mem_strs (c := c)).2.2.1
      (by rw [hmi, hmj, h])
    rw [hmi, hmj] at this
    exact this
  rcases x with _ | a | ⟨n, a⟩ <;> rcases x' with _ | a' | ⟨n', a'⟩ <;>
    simp only [RItem.part, Prod.mk.injEq, reduceCtorEq, and_false, Option.some.injEq] at h
  · exact ⟨hk h.1, rfl⟩
  · have := ha j hj i hi k' hxj.1 k (.inl hxi)
    rw [target, hmj, hxj.2.1] at this
    exact absurd h.1.symm this
  · refine ⟨hk h.1, ?_⟩
    rw [hu i hi j hj a (mem_strs.2.2.2.2.2 k a hxi).2 a' (mem_strs.2.2.2.2.2 k' a' hxj).2 h.2]
  · have := ha j hj i hi k' hxj.1 k (.inr ⟨a, hxi⟩)
    rw [target, hmj, hxj.2.1] at this
    exact absurd h.1.symm this
  · have := ha i hi j hj k hxi.1 k' (.inl hxj)
    rw [target, hmi, hxi.2.1] at this
    exact absurd h.1 this
  · have := ha i hi j hj k hxi.1 k' (.inr ⟨a', hxj⟩)
    rw [target, hmi, hxi.2.1] at this
    exact absurd h.1 this
  · have hn : ':' ∉ n.text := by rw [← hxi.2.1]; exact (hp i hi).name
    have hn' : ':' ∉ n'.text := by rw [← hxj.2.1]; exact (hp j hj).name
    have hnn : n.text = n'.text := by
      refine lastSegment_unique (lastSegment_join k.text n.text hn) ?_
      rw [h.1]
      exact lastSegment_join k'.text n'.text hn'
    have hkk : k = k' := by
      have := h.1
      rw [hnn] at this
      exact hk (by simpa using this)
    have hnn' : n = n' := by
      rw [← hxi.2.1, ← hxj.2.1]
      exact hu i hi j hj _ (mem_strs (c := c)).1 _ (mem_strs (c := c)).1 (by rw [hxi.2.1, hxj.2.1, hnn])
    have haa : a = a' := by
      cases a <;> cases a' <;> simp at h
      · rfl
      · have := hu i hi j hj _ ((mem_strs (c := c)).2.1 _ hxi.2.2) _ ((mem_strs (c := c)).2.1 _ hxj.2.2) h.2
        rw [this]
    exact ⟨hkk, by rw [hnn', haa]⟩

theorem iter_nodup (c : Mode) (l : List Import) {k : ItemStr} {e : Entry}
    (he : (k, e) ∈ modules c l) : (e.iter k).Nodup := by
  have hm := modulesOk c l
  have h1 := (hm.aliases k e he).nodup
  have h2 := (hm.names k e he).nodup
  unfold Entry.iter
  refine List.nodup_append.2 ⟨List.nodup_append.2 ⟨by split <;> simp, ?_, ?_⟩, ?_, ?_⟩
  · exact List.Pairwise.map _ (by intro a b h; simpa using h) h1
  · intro a ha b hb
    split at ha
    · simp at ha; subst ha
      simp at hb
      obtain ⟨x, -, rfl⟩ := hb
      simp
    · simp at ha
  · refine List.Pairwise.map _ ?_ h2
    intro a b h hab
    simp at hab
    exact h (Prod.ext hab.1 hab.2)
  · intro a ha b hb hab
    subst hab
    simp only [List.mem_map] at hb
    obtain ⟨x, -, rfl⟩ := hb
    simp only [List.mem_append, List.mem_map] at ha
    rcases ha with h | ⟨y, -, h⟩
    · split at h <;> simp at h
    · cases h

theorem name_notSelf (c : Mode) (l : List Import) (hp : ∀ i ∈ l, Proper i) {k : ItemStr} {e : Entry}
    (he : (k, e) ∈ modules c l) : ∀ x a, RItem.name x a ∈ e.iter k → x.text ≠ "self".toList := by
  intro x a hx
  obtain ⟨i, hi, -, -, h⟩ := iter_source c l he hx
  simp only at h
  rw [← h.2.1]
  exact (hp i hi).notSelf

theorem parts_uses (m : Modules)
    (hn : ∀ k e, (k, e) ∈ m → ∀ x a, RItem.name x a ∈ e.iter k → x.text ≠ "self".toList) :
    (uses m).flatMap Use.parts = m.flatMap (fun e => (e.2.iter e.1).map (RItem.part e.1.text)) := by
  induction m with
  | nil => rfl
  | cons e m ih =>
    have ih := ih (fun k e h => hn k e (by simp [h]))
    simp only [uses, List.filterMap_cons, List.flatMap_cons] at ih ⊢
    by_cases hr : e.2.iter e.1 = []
    · rw [hr]
      simpa using ih
    · have := useOf_parts e.1.text _ (hn e.1 e.2 (by simp)) hr
      split
      · rename_i h
        split at h
        · rename_i h'; exact absurd h' hr
        · cases h
      · rename_i h
        split at h
        · cases h
        · cases h
          rw [List.flatMap_cons, ih, this]

theorem mem_parts (c : Mode) (l : List Import) (hp : ∀ i ∈ l, Proper i) (x : Str × Option Str) :
    x ∈ (uses (modules c l)).flatMap Use.parts ↔
      ∃ i ∈ l, part c i = x ∧ ∀ m, form c i = .qualified m → hasSep2 m.text = true := by
  rw [parts_uses _ (fun k e he => name_notSelf c l hp he)]
  simp only [List.mem_flatMap, List.mem_map]
  have hm := modulesOk c l
  constructor
  · rintro ⟨⟨k, e⟩, he, y, hy, rfl⟩
    obtain ⟨i, hi, -, hpi, h⟩ := iter_source c l he hy
    refine ⟨i, hi, hpi.symm, ?_⟩
    intro m hf
    cases y with
    | self =>
      simp only at h
      rw [h] at hf
      cases hf
      rw [mem_iter] at hy
      rcases hy with ⟨-, -, h⟩ | ⟨_, -, h⟩ | ⟨_, -, h⟩
      · exact h
      · cases h
      · cases h
    | selfAlias a => simp only at h; rw [h] at hf; cases hf
    | name n a => simp only at h; rw [h.1] at hf; cases hf
  · rintro ⟨i, hi, rfl, hq⟩
    obtain ⟨⟨k, e⟩, he, hk⟩ := List.mem_map.1 ((hm.key (keyOf c i)).2 ⟨i, hi, rfl⟩)
    simp only at hk
    refine ⟨(k, e), he, ?_⟩
    cases hf : form c i with
    | direct k' =>
      have : k = k' := by rw [hk]; simp [keyOf, hf]
      subst this
      have hmo := (mem_strs (c := c)).2.2.2.1 k hf
      exact ⟨.name i.name i.alias, (mem_iter ..).2 (.inr (.inr ⟨(i.name, i.alias),
        (hm.name k e he _ _).2 ⟨i, hi, hf, rfl, rfl⟩, rfl⟩)), by simp [part, hf, RItem.part, target, hmo]⟩
    | qualified k' =>
      have : k = k' := by rw [hk]; simp [keyOf, hf]
      subst this
      exact ⟨.self, (mem_iter ..).2 (.inl ⟨rfl, (hm.self k e he).2 ⟨i, hi, hf⟩, hq k hf⟩),
        by simp [part, hf, RItem.part]⟩
    | aliased k' a =>
      have : k = k' := by rw [hk]; simp [keyOf, hf]
      subst this
      exact ⟨.selfAlias a, (mem_iter ..).2 (.inr (.inl ⟨a, (hm.asAlias k e he a).2 ⟨i, hi, hf⟩, rfl⟩)),
        by simp [part, hf, RItem.part]⟩

theorem parts_nodup (c : Mode) (l : List Import) (hp : ∀ i ∈ l, Proper i) (hu : Uniform strs l)
    (ha : Apart c l) : ((uses (modules c l)).flatMap Use.parts).Nodup := by
  rw [parts_uses _ (fun k e he => name_notSelf c l hp he)]
  have hk : (modules c l).Pairwise (fun a b => a.1 ≠ b.1) :=
    List.Pairwise.of_map Prod.fst (fun _ _ h => h) (modulesOk c l).keys.nodup
  refine List.pairwise_flatMap.2 ⟨?_, ?_⟩
  · rintro ⟨k, e⟩ he
    have := iter_nodup c l he
    refine List.pairwise_map.2 (this.imp_of_mem ?_)
    intro x y hx hy hne hxy
    exact hne (part_ne c l hp hu ha he he hx hy hxy).2
  · refine hk.imp_of_mem ?_
    rintro ⟨k, e⟩ ⟨k', e'⟩ he he' hne x hx y hy hxy
    simp only [List.mem_map] at hx hy
    obtain ⟨x, hx, rfl⟩ := hx
    obtain ⟨y, hy, rfl⟩ := hy
    exact hne (part_ne c l hp hu ha he he' hx hy hxy).1

/-- The entries of all modules, in the order they are written. -/
theorem entries_nodup (c : Mode) (l : List Import) :
    ((modules c l).flatMap (fun e => (e.2.iter e.1).map (fun x => (e.1, x)))).Nodup := by
  have hk : (modules c l).Pairwise (fun a b => a.1 ≠ b.1) :=
    List.Pairwise.of_map Prod.fst (fun _ _ h => h) (modulesOk c l).keys.nodup
  refine List.pairwise_flatMap.2 ⟨?_, ?_⟩
  · rintro ⟨k, e⟩ he
    exact List.pairwise_map.2 ((iter_nodup c l he).imp (fun h h' => h (Prod.ext_iff.1 h').2))
  · refine hk.imp ?_
    rintro ⟨k, e⟩ ⟨k', e'⟩ hne x hx y hy hxy
    simp only [List.mem_map] at hx hy
    obtain ⟨x, -, rfl⟩ := hx
    obtain ⟨y, -, rfl⟩ := hy
    exact hne (Prod.ext_iff.1 hxy).1

/-- The entry of an import that needs a declaration. -/
theorem entry_of (c : Mode) (l : List Import) {i : Import} (hi : i ∈ l)
    (hq : ∀ m, form c i = .qualified m → hasSep2 m.text = true) :
    ∃ k e x, (k, e) ∈ modules c l ∧ x ∈ e.iter k ∧ x.part k.text = part c i ∧
      match x with
      | .self => form c i = .qualified k
      | .selfAlias a => form c i = .aliased k a
      | .name n a => form c i = .direct k ∧ i.name = n ∧ i.alias = a := by
  have hm := modulesOk c l
  obtain ⟨⟨k, e⟩, he, hk⟩ := List.mem_map.1 ((hm.key (keyOf c i)).2 ⟨i, hi, rfl⟩)
  simp only at hk
  cases hf : form c i with
  | direct k' =>
    have : k = k' := by rw [hk]; simp [keyOf, hf]
    subst this
    have hmo := (mem_strs (c := c)).2.2.2.1 k hf
    exact ⟨k, e, .name i.name i.alias, he, (mem_iter ..).2 (.inr (.inr ⟨(i.name, i.alias),
      (hm.name k e he _ _).2 ⟨i, hi, hf, rfl, rfl⟩, rfl⟩)),
      by simp [part, hf, RItem.part, target, hmo], rfl, rfl, rfl⟩
  | qualified k' =>
    have : k = k' := by rw [hk]; simp [keyOf, hf]
    subst this
    exact ⟨k, e, .self, he, (mem_iter ..).2 (.inl ⟨rfl, (hm.self k e he).2 ⟨i, hi, hf⟩, hq k hf⟩),
      by simp [part, hf, RItem.part], rfl⟩
  | aliased k' a =>
    have : k = k' := by rw [hk]; simp [keyOf, hf]
    subst this
    exact ⟨k, e, .selfAlias a, he,
      (mem_iter ..).2 (.inr (.inl ⟨a, (hm.asAlias k e he a).2 ⟨i, hi, hf⟩, rfl⟩)),
      by simp [part, hf, RItem.part], rfl⟩

/-- The parts are free of repetitions iff imports with the same part are stored the
same way. -/
theorem parts_nodup_iff (c : Mode) (l : List Import) (hp : ∀ i ∈ l, Proper i) :
    ((uses (modules c l)).flatMap Use.parts).Nodup ↔
      ∀ i ∈ l, ∀ j ∈ l, (∀ m, form c i = .qualified m → hasSep2 m.text = true) →
        (∀ m, form c j = .qualified m → hasSep2 m.text = true) → part c i = part c j →
        SameWay c i j := by
  rw [parts_uses _ (fun k e he => name_notSelf c l hp he)]
  have hmap : (modules c l).flatMap (fun e => (e.2.iter e.1).map (RItem.part e.1.text)) =
      ((modules c l).flatMap (fun e => (e.2.iter e.1).map (fun x => (e.1, x)))).map
        (fun p => p.2.part p.1.text) := by
    simp [List.map_flatMap, Function.comp_def]
  rw [hmap, List.nodup_map_iff_inj_on (entries_nodup c l)]
  simp only [List.mem_flatMap, List.mem_map]
  constructor
  · intro h i hi j hj hqi hqj hij
    obtain ⟨k, e, x, he, hx, hpx, hsx⟩ := entry_of c l hi hqi
    obtain ⟨k', e', y, he', hy, hpy, hsy⟩ := entry_of c l hj hqj
    have := h (k, x) ⟨(k, e), he, x, hx, rfl⟩ (k', y) ⟨(k', e'), he', y, hy, rfl⟩
      (by simp only [hpx, hpy, hij])
    obtain ⟨rfl, rfl⟩ := Prod.ext_iff.1 this
    cases x with
    | self => exact ⟨by rw [hsx, hsy], by intro m hm; rw [hsx] at hm; cases hm⟩
    | selfAlias a => exact ⟨by rw [hsx, hsy], by intro m hm; rw [hsx] at hm; cases hm⟩
    | name n a =>
      exact ⟨by rw [hsx.1, hsy.1], fun _ _ => ⟨by rw [hsx.2.1, hsy.2.1], by rw [hsx.2.2, hsy.2.2]⟩⟩
  · rintro h ⟨k, x⟩ ⟨⟨k1, e⟩, he, x', hx, hkx⟩ ⟨k', y⟩ ⟨⟨k2, e'⟩, he', y', hy, hky⟩ hxy
    obtain ⟨rfl, rfl⟩ := Prod.ext_iff.1 hkx
    obtain ⟨rfl, rfl⟩ := Prod.ext_iff.1 hky
    simp only at hx hy hxy
    have need : ∀ {k : ItemStr} {e : Entry} {x : RItem}, x ∈ e.iter k → ∀ {i : Import},
        (match x with
          | .self => form c i = .qualified k
          | .selfAlias a => form c i = .aliased k a
          | .name n a => form c i = .direct k ∧ i.name = n ∧ i.alias = a) →
        ∀ m, form c i = .qualified m → hasSep2 m.text = true := by
      intro k e x hx i h m hf
      cases x with
      | self =>
        simp only at h
        rw [h] at hf
        cases hf
        rw [mem_iter] at hx
        rcases hx with ⟨-, -, h⟩ | ⟨_, -, h⟩ | ⟨_, -, h⟩
        · exact h
        · cases h
        · cases h
      | selfAlias a => simp only at h; rw [h] at hf; cases hf
      | name n a => simp only at h; rw [h.1] at hf; cases hf
    obtain ⟨i, hi, -, hpi, hsi⟩ := iter_source c l he hx
    obtain ⟨j, hj, -, hpj, hsj⟩ := iter_source c l he' hy
    have hs := h i hi j hj (need hx (by cases x' <;> exact hsi))
      (need hy (by cases y' <;> exact hsj)) (by rw [← hpi, ← hpj, hxy])
    cases x' with
    | self =>
      have h1 := hs.1
      rw [hsi] at h1
      cases y' with
      | self => rw [hsj] at h1; cases h1; rfl
      | selfAlias a => rw [hsj] at h1; cases h1
      | name n a => rw [hsj.1] at h1; cases h1
    | selfAlias a =>
      have h1 := hs.1
      rw [hsi] at h1
      cases y' with
      | self => rw [hsj] at h1; cases h1
      | selfAlias b => rw [hsj] at h1; cases h1; rfl
      | name n b => rw [hsj.1] at h1; cases h1
    | name n a =>
      have h1 := hs.1
      have h2 := hs.2 _ hsi.1
      rw [hsi.1] at h1
      cases y' with
      | self => rw [hsj] at h1; cases h1
      | selfAlias b => rw [hsj] at h1; cases h1
      | name n' b =>
        rw [hsj.1] at h1
        rw [hsi.2.1, hsj.2.1, hsi.2.2, hsj.2.2] at h2
        cases h1
        rw [h2.1, h2.2]

/-! ## Lines -/

theorem split_at (ch : Char) {a b x y : Str} (ha : ch ∉ a) (hb : ch ∉ b)
    (h : a ++ ch :: x = b ++ ch :: y) : a = b ∧ x = y := by
  induction a generalizing b with
  | nil =>
    cases b with
    | nil => exact ⟨rfl, (List.cons.inj h).2⟩
    | cons d b => exact absurd (List.cons.inj h).1 (by simp at hb; exact hb.1)
  | cons c a ih =>
    cases b with
    | nil => exact absurd (List.cons.inj h).1.symm (by simp at ha; exact ha.1)
    | cons d b =>
      simp only [List.mem_cons, not_or] at ha hb
      have := ih ha.2 hb.2 (List.cons.inj h).2
      exact ⟨by rw [(List.cons.inj h).1, this.1], this.2⟩

theorem asText_inj {p q : Str} {a b : Option Str} (hp : ' ' ∉ p) (hq : ' ' ∉ q)
    (h : asText p a = asText q b) : p = q ∧ a = b := by
  have hs : ∀ (x : Str) (y : Str), x ++ " as ".toList ++ y = x ++ ' ' :: ('a' :: 's' :: ' ' :: y) := by
    intro x y; simp
  cases a <;> cases b <;> simp only [asText, hs] at h
  · exact ⟨h, rfl⟩
  · rw [h] at hp; simp at hp
  · rw [← h] at hq; simp at hq
  · obtain ⟨h1, h2⟩ := split_at ' ' hp hq h
    exact ⟨h1, by simpa using h2⟩

theorem lines_nodup (c : Mode) (l : List Import) (hp : ∀ i ∈ l, Proper i) (hu : Uniform strs l)
    (ha : Apart c l) (hc : ∀ i ∈ l, Clean i) : ((uses (modules c l)).map Use.text).Nodup := by
  have hk : (modules c l).Pairwise (fun a b => a.1 ≠ b.1) :=
    List.Pairwise.of_map Prod.fst (fun _ _ h => h) (modulesOk c l).keys.nodup
  have hpart : ∀ k e, (k, e) ∈ modules c l → ∀ x ∈ e.iter k,
      (' ' ∉ (x.part k.text).1 ∧ '{' ∉ (x.part k.text).1) ∧ ∀ a, (x.part k.text).2 = some a → '{' ∉ a := by
    intro k e he x hx
    obtain ⟨i, hi, hmi, -, h⟩ := iter_source c l he hx
    have hkc := hc i hi _ (mem_strs (c := c)).2.2.1
    rw [hmi] at hkc
    rcases x with _ | a | ⟨n, a⟩ <;> simp only at h
    · exact ⟨hkc, by simp [RItem.part]⟩
    · refine ⟨hkc, ?_⟩
      intro b hb
      simp only [RItem.part, Option.some.injEq] at hb
      rw [← hb]
      exact (hc i hi _ (mem_strs.2.2.2.2.2 k a h).2).2
    · have hn := hc i hi _ (mem_strs (c := c)).1
      rw [h.2.1] at hn
      refine ⟨?_, ?_⟩
      · simp only [RItem.part, List.mem_append, not_or]
        exact ⟨⟨⟨hkc.1, by simp⟩, hn.1⟩, ⟨⟨hkc.2, by simp⟩, hn.2⟩⟩
      · intro b hb
        simp only [RItem.part, Option.map_eq_some_iff] at hb
        obtain ⟨a', ha', rfl⟩ := hb
        exact (hc i hi _ ((mem_strs (c := c)).2.1 a' (by rw [h.2.2, ha']))).2
  have htext : ∀ k e, (k, e) ∈ modules c l → ∀ k' e', (k', e') ∈ modules c l → k ≠ k' →
      e.iter k ≠ [] → e'.iter k' ≠ [] →
      (useOf k.text (e.iter k)).text ≠ (useOf k'.text (e'.iter k')).text := by
    intro k e he k' e' he' hne hr hr' h
    have brace : ∀ m ms, '{' ∈ (Use.group m ms).text := by
      intro m ms; simp [Use.text]
    have nobrace : ∀ k e, (k, e) ∈ modules c l → ∀ x ∈ e.iter k,
        '{' ∉ (Use.single (x.part k.text).1 (x.part k.text).2).text := by
      intro k e he x hx
      have h := hpart k e he x hx
      cases ha : (x.part k.text).2 with
      | none => simp [Use.text, asText, h.1.2]
      | some a => simp [Use.text, asText, h.1.2, h.2 a ha]
    rcases useOf_cases k.text _ hr with ⟨x, hx, hu1⟩ | ⟨ms, hu1⟩ <;>
      rcases useOf_cases k'.text _ hr' with ⟨x', hx', hu2⟩ | ⟨ms', hu2⟩ <;> rw [hu1, hu2] at h
    · have m1 : x ∈ e.iter k := by simp [hx]
      have m2 : x' ∈ e'.iter k' := by simp [hx']
      have := asText_inj (hpart k e he x m1).1.1 (hpart k' e' he' x' m2).1.1
        (by simpa [Use.text] using h)
      exact hne (part_ne c l hp hu ha he he' m1 m2 (Prod.ext this.1 this.2)).1
    · exact nobrace k e he x (by simp [hx]) (h ▸ brace _ _)
    · exact nobrace k' e' he' x' (by simp [hx']) (h ▸ brace _ _)
    · obtain ⟨x, hx⟩ := List.exists_mem_of_ne_nil _ hr
      obtain ⟨x', hx'⟩ := List.exists_mem_of_ne_nil _ hr'
      obtain ⟨i, hi, hmi, -⟩ := iter_source c l he hx
      obtain ⟨j, hj, hmj, -⟩ := iter_source c l he' hx'
      have hc1 := hc i hi _ (mem_strs (c := c)).2.2.1
      have hc2 := hc j hj _ (mem_strs (c := c)).2.2.1
      rw [hmi] at hc1
      rw [hmj] at hc2
      have e1 : ∀ (m : Str) ms, (Use.group m ms).text = ("use ".toList ++ m ++ "::".toList) ++ '{' ::
          (", ".toList.intercalate (ms.map (fun m => asText m.1 m.2)) ++ "};".toList) := by
        intro m ms; simp [Use.text]
      rw [e1, e1] at h
      have := (split_at '{' (by simp [hc1.2]) (by simp [hc2.2]) h).1
      have hkk : k.text = k'.text := by simpa using this
      have := hu i hi j hj _ (mem_strs (c := c)).2.2.1 _ (mem_strs (c := c)).2.2.1
        (by rw [hmi, hmj]; exact hkk)
      rw [hmi, hmj] at this
      exact hne this
  rw [uses, List.map_filterMap]
  refine List.pairwise_filterMap.2 (hk.imp_of_mem ?_)
  rintro ⟨k, e⟩ ⟨k', e'⟩ he he' hne x hx y hy
  simp only [Option.map_eq_some_iff] at hx hy
  obtain ⟨u, hu1, rfl⟩ := hx
  obtain ⟨u', hu2, rfl⟩ := hy
  split at hu1
  · cases hu1
  · rename_i hr
    cases hu1
    split at hu2
    · cases hu2
    · rename_i hr'
      cases hu2
      exact htext k e he k' e' he' hne (fun h => hr h) (fun h => hr' h)

end Genco.Rust
