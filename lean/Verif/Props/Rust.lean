import Verif.Proofs.Rust
import Verif.Props.Tokens

/-!
# Properties of Rust files (C39, C40 and the Rust part of C49–C51)
-/

set_option autoImplicit false

namespace Genco.Props

open Genco Spec Spec.RustFile Rust

/-- C39. The file of a stream is a list of `use` declarations, a blank line and
the body; through these declarations every import item of the stream, as it is
written in the body, resolves to `module::name`. -/
theorem C39_rust_scope (c : Mode) (cfg : Config) (cs : List (Call Import))
    (hb : losesSpace (lang c).langItem (history cs).items = false)
    (hp : ∀ i ∈ inserted cs, Proper i)
    (hc : ∀ i ∈ inserted cs, ∀ j ∈ inserted cs, ∀ n f f', Claims c i n f → Claims c j n f' → f = f') :
    ∃ us : List Use,
      toFileVec (lang c) cfg (file c (history cs)) =
        (toVec (lang c) cfg (history cs).items).map (fileLines (us.map Use.text)) ∧
      ∀ i ∈ inserted cs, Resolves us ((lang c).langItem i).flatten (target i) := by
  refine ⟨uses (modules c (history cs).walkImports), file_eq c cfg _ hb, ?_⟩
  rw [C03_walk_imports]
  intro i hi
  exact resolves c _ (by simpa using hp) i (by simpa using hi)
    (fun j hj _ => hc i hi j (by simpa using hj))

/-- C39. Exactly which imports resolve: those whose local name is claimed for the same
path by all imports that are declared. -/
theorem C39_exact (c : Mode) (cfg : Config) (cs : List (Call Import))
    (hb : losesSpace (lang c).langItem (history cs).items = false)
    (hp : ∀ i ∈ inserted cs, Proper i) :
    ∃ us : List Use,
      toFileVec (lang c) cfg (file c (history cs)) =
        (toVec (lang c) cfg (history cs).items).map (fileLines (us.map Use.text)) ∧
      ∀ i ∈ inserted cs, (Resolves us ((lang c).langItem i).flatten (target i) ↔
        ∀ j ∈ inserted cs, Needs c j → ∀ n f f', Claims c i n f → Claims c j n f' → f = f') := by
  refine ⟨uses (modules c (history cs).walkImports), file_eq c cfg _ hb, ?_⟩
  rw [C03_walk_imports]
  intro i hi
  refine (resolves_iff c _ (by simpa using hp) i (by simpa using hi)).trans ?_
  simp only [List.mem_reverse, Needs, hasSep2_iff]

/-- A module without `::` that is named itself needs no declaration, but does not resolve if
another import claims its name. -/
example :
    let i := (import_ (.static "log".toList) (.static "info".toList)).qualified
    let j := import_ (.static "a".toList) (.static "log".toList)
    ¬ Needs .direct i ∧ Needs .direct j ∧
      Claims .direct i "log".toList "log".toList ∧ Claims .direct j "log".toList "a::log".toList := by
  refine ⟨fun h => ?_, fun m h => ?_, ⟨⟨by decide, .inl rfl⟩, rfl⟩, rfl, rfl⟩
  · obtain ⟨p, s, h⟩ := h (.static "log".toList) rfl
    have := congrArg (fun l => ':' ∈ l) h
    simp [ItemStr.text] at this
  · cases h

/-- The stream of the following examples. -/
def rustDemo : List (Call Import) :=
  [.appendLang (import_ (.static "std::fmt".toList) (.static "Debug".toList)).qualified,
   .space,
   .appendLang (import_ (.static "std::fmt".toList) (.static "Display".toList)),
   .appendLang ((import_ (.static "rand".toList) (.static "Rng".toList)).withAlias (.static "R".toList)),
   .appendLang ((import_ (.static "a::b".toList) (.static "C".toList)).withModuleAlias (.static "z".toList)),
   .appendLang (import_ (.static "log".toList) (.static "info".toList)).qualified]

example : (toFileVec (lang .direct) ⟨.space 4, ['\n']⟩ (file .direct (history rustDemo))) =
    some ["use a::b as z;".toList, "use rand::Rng as R;".toList,
      "use std::fmt::{self, Display};".toList, [],
      "fmt::Debug DisplayRz::Clog::info".toList] := by decide +kernel

example : losesSpace (lang .direct).langItem (history rustDemo).items = false := by decide

example : (∀ i ∈ inserted rustDemo, Proper i) ∧ ∀ i ∈ inserted rustDemo, ∀ j ∈ inserted rustDemo,
    ∀ n f f', Claims .direct i n f → Claims .direct j n f' → f = f' := by
  have hfmt : LastSegment "std::fmt".toList "fmt".toList := ⟨by decide, .inr ⟨"std".toList, by decide⟩⟩
  have hlog : LastSegment "log".toList "log".toList := ⟨by decide, .inl rfl⟩
  have key : ∀ i ∈ inserted rustDemo, ∀ n f, Claims .direct i n f → (n, f) ∈
      [("fmt".toList, "std::fmt".toList), ("Display".toList, "std::fmt::Display".toList),
        ("R".toList, "rand::Rng".toList), ("z".toList, "a::b".toList), ("log".toList, "log".toList)] := by
    intro i hi n f h
    simp only [inserted, rustDemo, callItems, List.flatMap_cons, List.flatMap_nil, List.append_nil,
      List.singleton_append, List.filterMap_cons, langOf, List.filterMap_nil, List.mem_cons,
      List.not_mem_nil, or_false] at hi
    rcases hi with rfl | rfl | rfl | rfl | rfl
    · rw [lastSegment_unique h.1 hfmt, h.2]; decide
    · rw [h.1, h.2]; decide
    · rw [h.1, h.2]; decide
    · rw [h.1, h.2]; decide
    · rw [lastSegment_unique h.1 hlog, h.2]; decide
  refine ⟨?_, ?_⟩
  · intro i hi
    simp only [inserted, rustDemo, callItems, List.flatMap_cons, List.flatMap_nil, List.append_nil,
      List.singleton_append, List.filterMap_cons, langOf, List.filterMap_nil, List.mem_cons,
      List.not_mem_nil, or_false] at hi
    rcases hi with rfl | rfl | rfl | rfl | rfl
    · exact ⟨by decide, by decide, fun a h => (by cases h), fun m a h => (by cases h), _, hfmt⟩
    · exact ⟨by decide, by decide, fun a h => (by cases h), fun m a h => (by cases h), _, hfmt⟩
    · exact ⟨by decide, by decide, fun a h => (by cases h; decide), fun m a h => (by cases h),
        "rand".toList, by decide, .inl rfl⟩
    · exact ⟨by decide, by decide, fun a h => (by cases h), fun m a h => (by cases h; decide),
        "b".toList, by decide, .inr ⟨"a".toList, by decide⟩⟩
    · exact ⟨by decide, by decide, fun a h => (by cases h), fun m a h => (by cases h), _, hlog⟩
  · intro i hi j hj n f f' h h'
    have h1 := key i hi n f h
    have h2 := key j hj n f' h'
    simp only [List.mem_cons, Prod.mk.injEq, List.not_mem_nil, or_false] at h1 h2
    rcases h1 with ⟨rfl, rfl⟩ | ⟨rfl, rfl⟩ | ⟨rfl, rfl⟩ | ⟨rfl, rfl⟩ | ⟨rfl, rfl⟩ <;>
      rcases h2 with ⟨h, rfl⟩ | ⟨h, rfl⟩ | ⟨h, rfl⟩ | ⟨h, rfl⟩ | ⟨h, rfl⟩ <;>
      first | rfl | (exact absurd h (by decide))

/-- Without the condition on local names resolution fails: two imports of
different items under one name. -/
theorem C39_clash_witness :
    let i := import_ (.static "a".toList) (.static "X".toList)
    let j := import_ (.static "b".toList) (.static "X".toList)
    let us := [Use.single "a::X".toList none, Use.single "b::X".toList none]
    toFileVec (lang .direct) ⟨.space 4, ['\n']⟩ (file .direct (history [.appendLang i, .appendLang j])) =
      some (us.map Use.text ++ [[], "XX".toList]) ∧
    ¬ Resolves us ((lang .direct).langItem i).flatten (target i) := by
  refine ⟨by decide +kernel, ?_⟩
  rintro ⟨seg, rest, href, hseg, hrest, h⟩
  have hX : seg = "X".toList ∧ rest = [] := by
    rcases hrest with rfl | ⟨r, rfl⟩
    · exact ⟨(href.trans (List.append_nil _)).symm.trans rfl, rfl⟩
    · have := congrArg (fun l => ':' ∈ l) href
      simp [lang, rustLang, baseLang, Import.format, import_, Import.writeDirect, ItemStr.text] at this
  obtain ⟨rfl, rfl⟩ := hX
  have ha : Bound [Use.single "a::X".toList none, Use.single "b::X".toList none] "X".toList "a::X".toList :=
    ⟨.single "a::X".toList none, by simp, rfl, by decide, .inr ⟨"a".toList, by decide⟩⟩
  have hb : Bound [Use.single "a::X".toList none, Use.single "b::X".toList none] "X".toList "b::X".toList :=
    ⟨.single "b::X".toList none, by simp, rfl, by decide, .inr ⟨"b".toList, by decide⟩⟩
  rcases h with ⟨p, -, -, hu⟩ | ⟨hn, -⟩
  · have := (hu _ ha).trans (hu _ hb).symm
    exact absurd this (by decide)
  · exact hn _ ha

/-- C40, order: streams with the same imports, in any order and number, have the
same declarations. -/
theorem C40_order (c : Mode) (cfg : Config) (cs ds : List (Call Import))
    (h : ∀ i, i ∈ inserted cs ↔ i ∈ inserted ds)
    (hb : losesSpace (lang c).langItem (history cs).items = false)
    (hd : losesSpace (lang c).langItem (history ds).items = false) :
    ∃ us : List Use,
      toFileVec (lang c) cfg (file c (history cs)) =
        (toVec (lang c) cfg (history cs).items).map (fileLines (us.map Use.text)) ∧
      toFileVec (lang c) cfg (file c (history ds)) =
        (toVec (lang c) cfg (history ds).items).map (fileLines (us.map Use.text)) := by
  refine ⟨uses (modules c (history cs).walkImports), file_eq c cfg _ hb, ?_⟩
  have : modules c (history cs).walkImports = modules c (history ds).walkImports := by
    rw [C03_walk_imports, C03_walk_imports]
    exact modules_congr c (by simpa using h)
  rw [this]
  exact file_eq c cfg _ hd

example : ∀ i, i ∈ inserted rustDemo ↔ i ∈ inserted (rustDemo.reverse ++ rustDemo) := by
  intro i
  simp [inserted, rustDemo, callItems, langOf]
  tauto

/-- C40, content and order of modules: every declaration belongs to one module,
modules come in sorted order, no module text more than twice; written out, the
declarations are exactly what the imports ask for. -/
theorem C40_content (c : Mode) (cs : List (Call Import)) (hp : ∀ i ∈ inserted cs, Proper i) :
    ∃ mus : List (ItemStr × Use),
      (∀ cfg, losesSpace (lang c).langItem (history cs).items = false →
        toFileVec (lang c) cfg (file c (history cs)) =
          (toVec (lang c) cfg (history cs).items).map (fileLines (mus.map (·.2.text)))) ∧
      Sorted (mus.map (·.1)) ∧
      (∀ t : Str, (mus.filter (·.1.text = t)).length ≤ 2) ∧
      (∀ m u, (m, u) ∈ mus → ∀ x ∈ u.parts, ∃ i ∈ inserted cs, moduleOf i = m ∧ part c i = x) ∧
      ∀ x, x ∈ mus.flatMap (·.2.parts) ↔ ∃ i ∈ inserted cs, part c i = x ∧ Needs c i := by
  have hw : ∀ i, i ∈ (history cs).walkImports ↔ i ∈ inserted cs := by
    rw [C03_walk_imports]; simp
  have hp' : ∀ i ∈ (history cs).walkImports, Proper i := fun i hi => hp i ((hw i).1 hi)
  let M := modules c (history cs).walkImports
  let mus : List (ItemStr × Use) := M.filterMap (fun e => match e.2.iter e.1 with
    | [] => none
    | r => some (e.1, useOf e.1.text r))
  have hmus : mus.map (·.2) = uses M := by
    simp only [mus, uses, List.map_filterMap]
    congr 1
    funext e
    cases e.2.iter e.1 <;> rfl
  have hsub : (mus.map (·.1)).Sublist (M.map Prod.fst) := by
    simp only [mus, List.map_filterMap]
    induction M with
    | nil => exact List.Sublist.refl _
    | cons e M ih =>
      rw [List.filterMap_cons, List.map_cons]
      split
      · exact ih.cons _
      · rename_i b h
        have : b = e.1 := by
          split at h
          · cases h
          · cases h; rfl
        subst this
        exact ih.cons₂ _
  have hkeys : Sorted (mus.map (·.1)) := List.Pairwise.sublist hsub (modulesOk c _).keys
  refine ⟨mus, ?_, hkeys, ?_, ?_, ?_⟩
  · intro cfg hb
    have : mus.map (·.2.text) = (mus.map (·.2)).map Use.text := by simp
    rw [this, hmus]
    exact file_eq c cfg _ hb
  · intro t
    have hlen : (mus.filter (·.1.text = t)).length = ((mus.map (·.1)).filter (·.text = t)).length := by
      rw [List.filter_map, List.length_map]; rfl
    rw [hlen]
    have hn : ((mus.map (·.1)).filter (·.text = t)).Nodup := (Increasing.nodup hkeys).filter _
    have hmem : ∀ x ∈ (mus.map (·.1)).filter (·.text = t), x = .box t ∨ x = .static t := by
      intro x hx
      have : x.text = t := of_decide_eq_true (List.mem_filter.1 hx).2
      cases x <;> simp only [ItemStr.text] at this <;> simp [this]
    generalize (mus.map (·.1)).filter (·.text = t) = l at hn hmem
    rcases l with _ | ⟨a, _ | ⟨b, _ | ⟨d, l⟩⟩⟩
    · simp
    · simp
    · simp
    · exfalso
      simp only [List.nodup_cons, List.mem_cons, not_or] at hn
      have h1 := hmem a (by simp)
      have h2 := hmem b (by simp)
      have h3 := hmem d (by simp)
      rcases h1 with rfl | rfl <;> rcases h2 with rfl | rfl <;> rcases h3 with rfl | rfl <;> simp at hn
  · intro m u hmu x hx
    simp only [mus, List.mem_filterMap] at hmu
    obtain ⟨⟨k, e⟩, he, hmu⟩ := hmu
    split at hmu
    · cases hmu
    · rename_i hr
      cases hmu
      rw [useOf_parts _ _ (name_notSelf c _ hp' he) (fun h => hr h), List.mem_map] at hx
      obtain ⟨y, hy, rfl⟩ := hx
      obtain ⟨i, hi, hmi, hpi, -⟩ := iter_source c _ he hy
      exact ⟨i, (hw i).1 hi, hmi, hpi.symm⟩
  · intro x
    have : mus.flatMap (·.2.parts) = (uses M).flatMap Use.parts := by
      rw [← hmus, List.flatMap_map]
    rw [this, mem_parts c _ hp']
    simp only [hw, Needs, hasSep2_iff]

/-- C40, each item once, in part: written out, the declarations are free of
repetitions if equal texts are stored the same way and no module that is named
itself is also imported as item of its parent. Without either condition the code
repeats itself, see the witnesses below. -/
theorem C40_once_partial (c : Mode) (cfg : Config) (cs : List (Call Import))
    (hb : losesSpace (lang c).langItem (history cs).items = false)
    (hp : ∀ i ∈ inserted cs, Proper i) (hu : Uniform strs (inserted cs)) (ha : Apart c (inserted cs)) :
    ∃ us : List Use,
      toFileVec (lang c) cfg (file c (history cs)) =
        (toVec (lang c) cfg (history cs).items).map (fileLines (us.map Use.text)) ∧
      (us.flatMap Use.parts).Nodup := by
  refine ⟨uses (modules c (history cs).walkImports), file_eq c cfg _ hb, ?_⟩
  rw [C03_walk_imports]
  refine parts_nodup c _ (by simpa using hp) ?_ ?_
  · intro i hi j hj
    exact hu i (by simpa using hi) j (by simpa using hj)
  · intro i hi j hj
    exact ha i (by simpa using hi) j (by simpa using hj)

/-- C40, each item once, exactly: written out, the declarations are free of
repetitions iff any two imports that need a declaration and ask for the same item
under the same name are stored the same way. -/
theorem C40_once_exact_partial (c : Mode) (cfg : Config) (cs : List (Call Import))
    (hb : losesSpace (lang c).langItem (history cs).items = false)
    (hp : ∀ i ∈ inserted cs, Proper i) :
    ∃ us : List Use,
      toFileVec (lang c) cfg (file c (history cs)) =
        (toVec (lang c) cfg (history cs).items).map (fileLines (us.map Use.text)) ∧
      ((us.flatMap Use.parts).Nodup ↔
        ∀ i ∈ inserted cs, ∀ j ∈ inserted cs, Needs c i → Needs c j → part c i = part c j →
          SameWay c i j) := by
  refine ⟨uses (modules c (history cs).walkImports), file_eq c cfg _ hb, ?_⟩
  rw [C03_walk_imports, parts_nodup_iff c _ (by simpa using hp)]
  simp only [List.mem_reverse, Needs, hasSep2_iff]

/-- Repeated: the same name stored in two ways. -/
example :
    let i := import_ (.static "m".toList) (.static "n".toList)
    let j := import_ (.static "m".toList) (.box "n".toList)
    part .direct i = part .direct j ∧ ¬ SameWay .direct i j := by
  refine ⟨by decide, fun h => ?_⟩
  have := (h.2 (.static "m".toList) rfl).1
  revert this
  decide

example : Apart .direct (inserted rustDemo) ∧ Uniform strs (inserted rustDemo) := by
  constructor
  · intro i hi j hj m _ m' hm' ht
    simp only [inserted, rustDemo, callItems, List.flatMap_cons, List.flatMap_nil, List.append_nil,
      List.singleton_append, List.filterMap_cons, langOf, List.filterMap_nil, List.mem_cons,
      List.not_mem_nil, or_false] at hi hj
    rcases hi with rfl | rfl | rfl | rfl | rfl <;> rcases hj with rfl | rfl | rfl | rfl | rfl <;>
      simp [form, Import.qualified, Mod.qualified, import_, Import.withAlias, Mod.direct,
        Import.withModuleAlias, Mod.intoModuleAliased] at hm' <;> subst hm' <;>
      revert ht <;> decide
  · unfold Uniform
    decide

/-- C40, C50: a name stored once boxed and once static is imported twice; a module
named itself and imported from its parent gives the same declaration twice. -/
theorem C40_twice_witness :
    toFileVec (lang .direct) ⟨.space 4, ['\n']⟩ (file .direct (history
      [.appendLang (import_ (.static "m".toList) (.static "n".toList)),
       .appendLang (import_ (.static "m".toList) (.box "n".toList))])) =
      some ["use m::{n, n};".toList, [], "nn".toList] ∧
    toFileVec (lang .direct) ⟨.space 4, ['\n']⟩ (file .direct (history
      [.appendLang (import_ (.static "std".toList) (.static "fmt".toList)), .space,
       .appendLang (import_ (.static "std::fmt".toList) (.static "Debug".toList)).qualified])) =
      some ["use std::fmt;".toList, "use std::fmt;".toList, [], "fmt fmt::Debug".toList] := by
  decide +kernel

/-- C49 for Rust: the header stream depends only on the set of imports. -/
theorem C49_rust (c : Mode) (cs ds : List (Call Import))
    (h : ∀ i, i ∈ inserted cs ↔ i ∈ inserted ds) :
    (file c (history cs)).head? = (file c (history ds)).head? := by
  unfold file header importCalls
  rw [C03_walk_imports, C03_walk_imports,
    modules_congr c (l := (inserted cs).reverse) (l' := (inserted ds).reverse) (by simpa using h)]
  rfl

/-- C50 for Rust, in part: no line twice, under the conditions of
`C40_once_partial` and if no text contains a space or an opening brace. -/
theorem C50_rust_partial (c : Mode) (cfg : Config) (cs : List (Call Import))
    (hb : losesSpace (lang c).langItem (history cs).items = false)
    (hp : ∀ i ∈ inserted cs, Proper i) (hu : Uniform strs (inserted cs)) (ha : Apart c (inserted cs))
    (hc : ∀ i ∈ inserted cs, Clean i) :
    ∃ hd : List Str,
      toFileVec (lang c) cfg (file c (history cs)) =
        (toVec (lang c) cfg (history cs).items).map (fileLines hd) ∧ hd.Nodup := by
  refine ⟨_, file_eq c cfg _ hb, ?_⟩
  rw [C03_walk_imports]
  refine lines_nodup c _ (by simpa using hp) ?_ ?_ (by simpa using hc)
  · intro i hi j hj
    exact hu i (by simpa using hi) j (by simpa using hj)
  · intro i hi j hj
    exact ha i (by simpa using hi) j (by simpa using hj)

/-- C51 for Rust: declarations, a blank line, the body; without declarations, the
body. There are declarations iff some import needs one. -/
theorem C51_rust (c : Mode) (cfg : Config) (cs : List (Call Import))
    (hb : losesSpace (lang c).langItem (history cs).items = false) :
    ∃ us : List Use,
      toFileVec (lang c) cfg (file c (history cs)) =
        (toVec (lang c) cfg (history cs).items).map (fileLines (us.map Use.text)) ∧
      (us = [] ↔ ∀ i ∈ inserted cs, ¬ Needs c i) := by
  refine ⟨_, file_eq c cfg _ hb, ?_⟩
  have hw : ∀ i, i ∈ (history cs).walkImports ↔ i ∈ inserted cs := by
    rw [C03_walk_imports]; simp
  have hm := modulesOk c (history cs).walkImports
  constructor
  · intro h i hi hn
    obtain ⟨⟨k, e⟩, he, hk⟩ := List.mem_map.1 ((hm.key (keyOf c i)).2 ⟨i, (hw i).2 hi, rfl⟩)
    simp only at hk
    have hne : e.iter k ≠ [] := by
      have : ∃ x, x ∈ e.iter k := by
        cases hf : form c i with
        | direct k' =>
          have : k = k' := by rw [hk]; simp [keyOf, hf]
          subst this
          exact ⟨_, (mem_iter ..).2 (.inr (.inr ⟨(i.name, i.alias),
            (hm.name k e he _ _).2 ⟨i, (hw i).2 hi, hf, rfl, rfl⟩, rfl⟩))⟩
        | qualified k' =>
          have : k = k' := by rw [hk]; simp [keyOf, hf]
          subst this
          exact ⟨_, (mem_iter ..).2 (.inl ⟨rfl, (hm.self k e he).2 ⟨i, (hw i).2 hi, hf⟩,
            (hasSep2_iff _).2 (hn k hf)⟩)⟩
        | aliased k' a =>
          have : k = k' := by rw [hk]; simp [keyOf, hf]
          subst this
          exact ⟨_, (mem_iter ..).2 (.inr (.inl ⟨a, (hm.asAlias k e he a).2 ⟨i, (hw i).2 hi, hf⟩, rfl⟩))⟩
      obtain ⟨x, hx⟩ := this
      intro h'
      rw [h'] at hx
      simp at hx
    have : useOf k.text (e.iter k) ∈ uses (modules c (history cs).walkImports) := by
      simp only [uses, List.mem_filterMap]
      refine ⟨(k, e), he, ?_⟩
      split
      · rename_i h'; exact absurd h' hne
      · rfl
    rw [h] at this
    simp at this
  · intro h
    rw [List.eq_nil_iff_forall_not_mem]
    intro u hu
    simp only [uses, List.mem_filterMap] at hu
    obtain ⟨⟨k, e⟩, he, hu⟩ := hu
    split at hu
    · cases hu
    · rename_i hr
      obtain ⟨x, hx⟩ := List.exists_mem_of_ne_nil _ (fun h' => hr h')
      obtain ⟨i, hi, hmi, -, hxi⟩ := iter_source c _ he hx
      refine h i ((hw i).1 hi) ?_
      intro m hf
      rw [mem_iter] at hx
      rcases hx with ⟨rfl, -, h2⟩ | ⟨_, -, rfl⟩ | ⟨_, -, rfl⟩ <;> simp only at hxi
      · rw [hxi] at hf
        cases hf
        exact (hasSep2_iff _).1 h2
      · rw [hxi] at hf; cases hf
      · rw [hxi.1] at hf; cases hf

end Genco.Props
