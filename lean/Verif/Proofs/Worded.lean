import Verif.Model.Worded
import Verif.Spec.Worded
import Verif.Proofs.Rust
import Verif.Proofs.Python
import Verif.Proofs.Js
import Verif.Proofs.Simple

/-!
# Texts given to functions are boxed, and compare as texts
-/

set_option autoImplicit false

namespace Genco

open Spec

/-- The text is boxed. -/
def Boxed (x : ItemStr) : Prop := ∃ s, x = .box s

theorem Wording.boxed (w : Wording) : Boxed w.into := by
  rcases w with s | s | s | s | s | ⟨_ | _, s⟩ | ⟨_ | _, s⟩ | s <;> exact ⟨s, rfl⟩

theorem Worded.boxed {x : ItemStr} (h : Worded x) : Boxed x := by
  obtain ⟨w, rfl⟩ := h
  exact w.boxed

theorem Boxed.compare {x y : ItemStr} (hx : Boxed x) (hy : Boxed y) :
    Ord.compare x y = Ord.compare x.text y.text := by
  obtain ⟨s, rfl⟩ := hx
  obtain ⟨t, rfl⟩ := hy
  rfl

theorem Boxed.ext {x y : ItemStr} (hx : Boxed x) (hy : Boxed y) (h : x.text = y.text) : x = y := by
  obtain ⟨s, rfl⟩ := hx
  obtain ⟨t, rfl⟩ := hy
  exact congrArg ItemStr.box h

theorem boxed_option {x y : Option ItemStr} (hx : ∀ a ∈ x, Boxed a) (hy : ∀ a ∈ y, Boxed a) :
    Ord.compare x y = Ord.compare (x.map ItemStr.text) (y.map ItemStr.text) := by
  cases x with
  | none => cases y <;> rfl
  | some a =>
    cases y with
    | none => rfl
    | some b => exact (hx a rfl).compare (hy b rfl)

/-- Sorted boxed texts are sorted texts. -/
theorem boxed_sorted {l : List ItemStr} (h : Sorted l) (hb : ∀ x ∈ l, Boxed x) : Sorted (l.map ItemStr.text) :=
  sorted_map h (fun a ha b hb' => (hb a ha).compare (hb b hb'))

theorem boxed_sorted_pair {l : List (ItemStr × ItemStr)} (h : Sorted l) (hb : ∀ x ∈ l, Boxed x.1 ∧ Boxed x.2) :
    Sorted (l.map (fun e => (e.1.text, e.2.text))) :=
  sorted_map h (fun a ha b hb' => by
    rw [compare_pair, compare_pair, (hb a ha).1.compare (hb b hb').1, (hb a ha).2.compare (hb b hb').2])

theorem boxed_sorted_option {l : List (ItemStr × Option ItemStr)} (h : Sorted l)
    (hb : ∀ x ∈ l, Boxed x.1 ∧ ∀ a ∈ x.2, Boxed a) :
    Sorted (l.map (fun e => (e.1.text, e.2.map ItemStr.text))) :=
  sorted_map h (fun a ha b hb' => by
    rw [compare_pair, compare_pair, (hb a ha).1.compare (hb b hb').1, boxed_option (hb a ha).2 (hb b hb').2])

theorem find?_congr {α : Type} {p q : α → Bool} {l : List α} (h : ∀ x ∈ l, p x = q x) :
    l.find? p = l.find? q := by
  induction l with
  | nil => rfl
  | cons x l ih =>
    rw [List.find?_cons, List.find?_cons, h x (by simp), ih (fun y hy => h y (by simp [hy]))]

namespace Rust

open Spec.RustFile

theorem Import.Worded.boxed {i : Import} (h : i.Worded) : ∀ x ∈ strs i, Boxed x := by
  obtain ⟨m, n, ss, hs, rfl⟩ := h
  have key : ∀ ss : List Step, (∀ s ∈ ss, s.Worded) → ∀ i : Import, (∀ x ∈ strs i, Boxed x) →
      ∀ x ∈ strs (ss.foldl Step.apply i), Boxed x := by
    intro ss
    induction ss with
    | nil => exact fun _ i h => h
    | cons s ss ih =>
      intro hs i hi
      refine ih (fun t ht => hs t (List.mem_cons_of_mem _ ht)) _ ?_
      have h1 := hs s (by simp)
      rcases i with ⟨⟨_, k⟩ | ⟨k, b⟩, nm, al⟩ <;> cases s <;>
        simp only [strs, Step.apply, Import.withAlias, Import.withModuleAlias, Import.qualified, Import.direct,
          Mod.intoModuleAliased, Mod.direct, Mod.qualified, List.mem_append, List.mem_cons, List.not_mem_nil,
          or_false, Option.mem_toList] at hi ⊢ <;> intro x hx
      all_goals first
        | exact hi x hx
        | (have h2 := Genco.Worded.boxed h1
           grind)
  refine key ss hs _ ?_
  simp only [import_, strs, List.singleton_append, Option.toList_none, List.append_nil, List.mem_cons,
    List.not_mem_nil, or_false]
  rintro x (rfl | rfl)
  · exact m.boxed
  · exact n.boxed

/-- What is imported of a module. -/
def groupOf (e : ItemStr × Entry) : Group :=
  ⟨e.1.text, e.2.selfImport && hasSep2 e.1.text, e.2.selfAliases.map ItemStr.text,
    e.2.names.map (fun n => (n.1.text, n.2.map ItemStr.text))⟩

theorem group_members (e : ItemStr × Entry) : (groupOf e).members = (e.2.iter e.1).map RItem.member := by
  unfold Group.members Entry.iter
  rw [show (groupOf e).self = (e.2.selfImport && hasSep2 e.1.text) from rfl]
  by_cases h : (e.2.selfImport && hasSep2 e.1.text) = true
  · rw [if_pos h, if_pos h]; simp [groupOf, RItem.member, Function.comp_def]
  · rw [if_neg h, if_neg h]; simp [groupOf, RItem.member, Function.comp_def]

theorem group_paths (e : ItemStr × Entry) : (groupOf e).paths = (e.2.iter e.1).map (RItem.part e.1.text) := by
  unfold Group.paths Entry.iter
  rw [show (groupOf e).self = (e.2.selfImport && hasSep2 e.1.text) from rfl]
  by_cases h : (e.2.selfImport && hasSep2 e.1.text) = true
  · rw [if_pos h, if_pos h]; simp [groupOf, RItem.part, Function.comp_def]
  · rw [if_neg h, if_neg h]; simp [groupOf, RItem.part, Function.comp_def]

theorem group_use (e : ItemStr × Entry) : (groupOf e).use = useOf e.1.text (e.2.iter e.1) := by
  unfold Group.use
  rw [group_paths, group_members]
  have hm : (groupOf e).module = e.1.text := rfl
  rw [hm]
  generalize e.1.text = m
  rcases e.2.iter e.1 with _ | ⟨x, _ | ⟨y, r⟩⟩
  · rfl
  · rcases x with _ | a | ⟨n, a⟩ <;> rfl
  · rcases x with _ | a | ⟨n, a⟩ <;> rfl

/-- The groups. -/
def groups (m : Modules) : List Group :=
  (m.filter (fun e => !(e.2.iter e.1).isEmpty)).map groupOf

theorem groups_uses (m : Modules) : (groups m).map Group.use = uses m := by
  induction m with
  | nil => rfl
  | cons e m ih =>
    simp only [groups, uses, List.filter_cons, List.filterMap_cons] at ih ⊢
    cases h : e.2.iter e.1 with
    | nil => simpa using ih
    | cons x r =>
      simp only [List.isEmpty_cons, Bool.not_false, if_true, List.map_cons, ih, group_use, h]

theorem groups_ok (c : Mode) (l : List Import) (hw : ∀ i ∈ l, i.Worded) :
    Lists ((groups (modules c l)).map Group.module)
      (fun t => ∃ i ∈ l, (moduleOf i).text = t ∧ Needs c i) ∧
    ∀ g ∈ groups (modules c l), g.For c l := by
  have hm := modulesOk c l
  have hb : ∀ i ∈ l, ∀ x ∈ strs i, Boxed x := fun i hi => (hw i hi).boxed
  have hkb : ∀ k ∈ (modules c l).map Prod.fst, Boxed k := by
    intro k hk
    obtain ⟨i, hi, rfl⟩ := (hm.key k).1 hk
    have : keyOf c i = moduleOf i := by
      have := mem_strs (c := c) (i := i)
      cases hf : form c i with
      | direct m => rw [this.2.2.2.1 m hf]; simp [keyOf, hf]
      | qualified m => rw [this.2.2.2.2.1 m hf]; simp [keyOf, hf]
      | aliased m a => rw [(this.2.2.2.2.2 m a hf).1]; simp [keyOf, hf]
    rw [this]
    exact hb i hi _ (mem_strs (c := c)).2.2.1
  have hneeds : ∀ i, Needs c i ↔ ∀ m, form c i = .qualified m → hasSep2 m.text = true := by
    intro i
    simp only [Needs, hasSep2_iff]
  refine ⟨⟨?_, fun t => ?_⟩, ?_⟩
  · have e : (groups (modules c l)).map Group.module =
        (((modules c l).filter (fun e => !(e.2.iter e.1).isEmpty)).map Prod.fst).map ItemStr.text := by
      simp [groups, groupOf, Function.comp_def]
    rw [e]
    have hsub : (((modules c l).filter (fun e => !(e.2.iter e.1).isEmpty)).map Prod.fst).Sublist
        ((modules c l).map Prod.fst) := List.filter_sublist.map _
    exact boxed_sorted (List.Pairwise.sublist hsub hm.keys) (fun x hx => hkb x (hsub.subset hx))
  · simp only [groups, List.map_map, List.mem_map, List.mem_filter, Prod.exists, Function.comp_apply]
    constructor
    · rintro ⟨k, e, ⟨he, hne⟩, rfl⟩
      obtain ⟨x, hx⟩ := List.exists_mem_of_ne_nil (e.iter k) (by simpa using hne)
      obtain ⟨i, hi, hmi, -, hx'⟩ := iter_source c l he hx
      refine ⟨i, hi, by rw [hmi]; rfl, (hneeds i).2 fun m hf => ?_⟩
      rcases (mem_iter ..).1 hx with ⟨rfl, -, h2⟩ | ⟨a, -, rfl⟩ | ⟨p, -, rfl⟩
      · simp only at hx'
        rw [hf] at hx'
        cases hx'
        exact h2
      · simp only at hx'
        rw [hf] at hx'
        cases hx'
      · simp only at hx'
        rw [hf] at hx'
        cases hx'.1
    · rintro ⟨i, hi, rfl, hn⟩
      obtain ⟨k, e, x, he, hx, -, hx'⟩ := entry_of c l hi ((hneeds i).1 hn)
      refine ⟨k, e, ⟨he, by simpa using List.ne_nil_of_mem hx⟩, ?_⟩
      have := mem_strs (c := c) (i := i)
      have hk : moduleOf i = k := by
        rcases x with _ | a | ⟨n, a⟩ <;> simp only at hx'
        · exact this.2.2.2.2.1 k hx'
        · exact (this.2.2.2.2.2 k a hx').1
        · exact this.2.2.2.1 k hx'.1
      rw [hk]
      rfl
  · intro g hg
    simp only [groups, List.mem_map, List.mem_filter, Prod.exists] at hg
    obtain ⟨k, e, ⟨he, -⟩, rfl⟩ := hg
    have hk : Boxed k := hkb k (List.mem_map_of_mem (f := Prod.fst) he)
    have hmod : ∀ i ∈ l, ∀ m : ItemStr, moduleOf i = m → m.text = k.text → m = k := by
      intro i hi m hmi ht
      exact (hmi ▸ hb i hi _ (mem_strs (c := c)).2.2.1 : Boxed m).ext hk ht
    refine ⟨?_, ⟨boxed_sorted (hm.aliases k e he) ?_, fun x => ?_⟩, ⟨boxed_sorted_option (hm.names k e he) ?_, ?_⟩⟩
    · simp only [groupOf, Bool.and_eq_true, hm.self k e he]
      constructor
      · rintro ⟨⟨i, hi, hf⟩, h2⟩
        refine ⟨i, hi, k, hf, rfl, (hneeds i).2 fun m hf' => ?_⟩
        rw [hf] at hf'
        cases hf'
        exact h2
      · rintro ⟨i, hi, m, hf, ht, hn⟩
        have := hmod i hi m (mem_strs.2.2.2.2.1 m hf) ht
        subst this
        exact ⟨⟨i, hi, hf⟩, (hneeds i).1 hn m hf⟩
    · intro a ha
      obtain ⟨i, hi, hf⟩ := (hm.asAlias k e he a).1 ha
      exact hb i hi a (mem_strs.2.2.2.2.2 k a hf).2
    · simp only [groupOf, List.mem_map, hm.asAlias k e he]
      constructor
      · rintro ⟨a, ⟨i, hi, hf⟩, rfl⟩
        exact ⟨i, hi, k, a, hf, rfl, rfl⟩
      · rintro ⟨i, hi, m, a, hf, ht, rfl⟩
        have := hmod i hi m (mem_strs.2.2.2.2.2 m a hf).1 ht
        subst this
        exact ⟨a, ⟨i, hi, hf⟩, rfl⟩
    · rintro ⟨n, a⟩ hx
      obtain ⟨i, hi, hf, rfl, rfl⟩ := (hm.name k e he n a).1 hx
      exact ⟨hb i hi _ (mem_strs (c := c)).1, fun b hb' => hb i hi b ((mem_strs (c := c)).2.1 b hb')⟩
    · intro x
      simp only [groupOf, List.mem_map, Prod.exists, hm.name k e he]
      constructor
      · rintro ⟨n, a, ⟨i, hi, hf, rfl, rfl⟩, rfl⟩
        exact ⟨i, hi, k, hf, rfl, rfl⟩
      · rintro ⟨i, hi, m, hf, ht, rfl⟩
        have := hmod i hi m (mem_strs.2.2.2.1 m hf) ht
        subst this
        exact ⟨_, _, ⟨i, hi, hf, rfl, rfl⟩, rfl⟩

end Rust

namespace Python

open Spec.PythonFile

theorem Import.Worded.boxed {i : Import} (h : i.Worded) : ∀ x ∈ strs i, Boxed x := by
  rcases h with ⟨m, n, ss, hs, rfl⟩ | ⟨m, as, rfl⟩
  · have key : ∀ ss : List Step, (∀ s ∈ ss, s.Worded) → ∀ i : Import, (∀ x ∈ strs i, Boxed x) →
        ∀ x ∈ strs (ss.foldl Step.apply i), Boxed x := by
      intro ss
      induction ss with
      | nil => exact fun _ i h => h
      | cons s ss ih =>
        intro hs i hi
        refine ih (fun t ht => hs t (List.mem_cons_of_mem _ ht)) _ ?_
        have h1 := hs s (by simp)
        rcases i with ⟨k | ⟨k, b⟩, nm, al⟩ | ⟨k, b⟩ <;> cases s <;>
          simp only [strs, Step.apply, Import.withAlias, Import.withModuleAlias, Import.qualified,
            Mod.toQualified, Mod.withAlias, List.mem_append, List.mem_cons, Option.mem_toList] at hi ⊢ <;> intro x hx
        all_goals first
          | exact hi x hx
          | (have h2 := Genco.Worded.boxed h1
             grind)
          | grind
    refine key ss hs _ ?_
    simp only [import_, strs, Option.toList_none, List.mem_cons, List.not_mem_nil, or_false]
    rintro x (rfl | rfl)
    · exact m.boxed
    · exact n.boxed
  · have key : ∀ as : List Wording, ∀ i : Import, (∀ x ∈ strs i, Boxed x) →
        ∀ x ∈ strs ((as.map Wording.into).foldl (fun i a => i.withAlias a) i), Boxed x := by
      intro as
      induction as with
      | nil => exact fun i h => h
      | cons a as ih =>
        intro i hi
        refine ih _ ?_
        have h2 := a.boxed
        rcases i with ⟨k | ⟨k, b⟩, nm, al⟩ | ⟨k, b⟩ <;>
          simp only [strs, Import.withAlias, List.mem_append, List.mem_cons, Option.mem_toList] at hi ⊢ <;>
          grind
    refine key as _ ?_
    simp only [importModule, strs, Option.toList_none, List.mem_cons, List.not_mem_nil, or_false]
    rintro x rfl
    exact m.boxed

end Python

namespace Js

open Spec.JsFile

/-- The texts of an import. -/
structure Import.Boxed (i : Import) : Prop where
  «module» : ∃ s, i.module = .global (.box s)
  name : Genco.Boxed i.name
  «alias» : ∀ a ∈ i.alias, Genco.Boxed a

theorem Import.Worded.boxed {i : Import} (h : i.Worded) : i.Boxed := by
  obtain ⟨m, b, n, ss, hs, rfl⟩ := h
  have key : ∀ ss : List Step, (∀ s ∈ ss, s.Worded) → ∀ i : Import, i.Boxed →
      (ss.foldl Step.apply i).Boxed := by
    intro ss
    induction ss with
    | nil => exact fun _ i h => h
    | cons s ss ih =>
      intro hs i hi
      refine ih (fun t ht => hs t (List.mem_cons_of_mem _ ht)) _ ?_
      have h1 := hs s (by simp)
      obtain ⟨i1, i2, i3⟩ := hi
      cases s with
      | withAlias a => exact ⟨i1, i2, fun x hx => by cases hx; exact Genco.Worded.boxed h1⟩
      | intoDefault => exact ⟨i1, i2, fun x hx => by cases hx⟩
      | intoWildcard => exact ⟨i1, i2, fun x hx => by cases hx⟩
  refine key ss hs _ ⟨⟨m, by cases b <;> rfl⟩, n.boxed, fun x hx => by cases hx⟩

end Js

namespace Go

theorem Import.Worded.boxed {i : Import} (h : i.Worded) : Boxed i.module := by
  obtain ⟨m, n, rfl⟩ := h
  exact m.boxed

end Go

namespace Swift

theorem Import.Worded.boxed {i : Import} (h : i.Worded) : Boxed i.module := by
  obtain ⟨m, n, rfl⟩ := h
  exact m.boxed

end Swift

namespace C

theorem Import.Worded.boxed {i : Import} (h : i.Worded) : Boxed i.path := by
  obtain ⟨m, n, rfl | rfl⟩ := h
  · exact m.boxed
  · exact m.boxed

end C

namespace Dart

theorem Import.Worded.boxed {i : Import} (h : i.Worded) : Boxed i.path ∧ ∀ a ∈ i.alias, Boxed a := by
  obtain ⟨m, n, as, rfl⟩ := h
  have key : ∀ as : List Wording, ∀ i : Import, (Boxed i.path ∧ ∀ a ∈ i.alias, Boxed a) →
      Boxed ((as.map Wording.into).foldl Import.withAlias i).path ∧
        ∀ a ∈ ((as.map Wording.into).foldl Import.withAlias i).alias, Boxed a := by
    intro as
    induction as with
    | nil => exact fun i h => h
    | cons a as ih =>
      exact fun i hi => ih _ ⟨hi.1, fun x hx => by cases hx; exact a.boxed⟩
  exact key as _ ⟨m.boxed, fun x hx => by cases hx⟩

end Dart

namespace Java

theorem Import.Worded.boxed {i : Import} (h : i.Worded) : Boxed i.package ∧ Boxed i.name := by
  obtain ⟨m, n, rfl⟩ := h
  exact ⟨m.boxed, n.boxed⟩

end Java

namespace Nix

theorem Import.Worded.inherit {p n : ItemStr} (h : Import.Worded (.inherit p n)) : Boxed p ∧ Boxed n := by
  rcases h with ⟨_, h⟩ | ⟨p, n, h⟩ | ⟨_, _, h⟩ | ⟨_, _, h⟩ <;> cases h
  exact ⟨p.boxed, n.boxed⟩

theorem Import.Worded.with {p n : ItemStr} (h : Import.Worded (.with p n)) : Boxed p := by
  rcases h with ⟨_, h⟩ | ⟨_, _, h⟩ | ⟨_, _, h⟩ | ⟨p, _, h⟩ <;> cases h
  exact p.boxed

theorem Import.Worded.variable {n : ItemStr} {v : Tokens Import} (h : Import.Worded (.variable n v)) : Boxed n := by
  rcases h with ⟨_, h⟩ | ⟨_, _, h⟩ | ⟨n, _, h⟩ | ⟨_, _, h⟩ <;> cases h
  exact n.boxed

end Nix

end Genco
