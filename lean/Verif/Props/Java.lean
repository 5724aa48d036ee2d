import Mathlib.Data.List.Nodup
import Verif.Proofs.Java
import Verif.Props.Python

/-!
# Properties of Java files (C42 and parts of C49–C51)
-/

set_option autoImplicit false

namespace Genco.Props

open Genco Spec Spec.JavaFile

/-- C42. A Java file is the package line if any, import lines, and the body. Every
foreign class name that is used is imported exactly once, from a package that it is
used with; nothing else is imported; the order is that of the stored pairs. -/
theorem C42_header (package : Option ItemStr) (cfg : Config) (cs : List (Call Java.Import))
    (hb : losesSpace (Java.lang package (history cs)).langItem (history cs).items = false) :
    ∃ ims : List (ItemStr × ItemStr),
      toFileVec (Java.lang package (history cs)) cfg (Java.file package (history cs)) =
        (toVec (Java.lang package (history cs)) cfg (history cs).items).map (fileLines (paragraphs
          [(package.map (fun p => packageLine p.text)).toList,
           ims.map (fun e => importLine e.1.text e.2.text)])) ∧
      Sorted ims ∧ (ims.map (·.2.text)).Nodup ∧
      (∀ e ∈ ims, (∃ i ∈ inserted cs, (i.package, i.name) = e) ∧
        Foreign (package.map ItemStr.text) (e.1.text, e.2.text)) ∧
      ∀ i ∈ inserted cs, Foreign (package.map ItemStr.text) (target i) →
        ∃ e ∈ ims, e.2.text = i.name.text := by
  obtain ⟨ims, h⟩ := Java.resolved_ok package (history cs).walkImports
  refine ⟨ims, Java.file_eq package cfg _ hb h.lines, ?_, h.nodup, ?_, ?_⟩
  · exact List.Pairwise.sublist h.sub (increasing_setOf _)
  · intro e he
    refine ⟨?_, h.foreign e he⟩
    obtain ⟨i, hi, hie⟩ := (Java.mem_keys _ e).1 (h.sub.subset he)
    exact ⟨i, (walk_mem cs i).1 hi, hie⟩
  · intro i hi hf
    obtain ⟨p, hp⟩ := h.all (i.package, i.name)
      ((Java.mem_keys _ _).2 ⟨i, (walk_mem cs i).2 hi, rfl⟩) hf
    obtain ⟨e, he, hpe⟩ := List.mem_map.1 ((h.get _ _).1 hp)
    exact ⟨e, he, congrArg Prod.snd hpe⟩

/-- C42. Which of several packages a name is imported from: the first one, in the
order of the stored pairs. -/
theorem C42_chosen (package : Option ItemStr) (cfg : Config) (cs : List (Call Java.Import))
    (hb : losesSpace (Java.lang package (history cs)).langItem (history cs).items = false) :
    ∃ ims : List (ItemStr × ItemStr),
      toFileVec (Java.lang package (history cs)) cfg (Java.file package (history cs)) =
        (toVec (Java.lang package (history cs)) cfg (history cs).items).map (fileLines (paragraphs
          [(package.map (fun p => packageLine p.text)).toList,
           ims.map (fun e => importLine e.1.text e.2.text)])) ∧
      Sorted ims ∧ ∀ e, e ∈ ims ↔ ∃ i, Chosen (package.map ItemStr.text) (inserted cs) i ∧
        (i.package, i.name) = e := by
  obtain ⟨ims, h⟩ := Java.resolved_ok package (history cs).walkImports
  refine ⟨ims, Java.file_eq package cfg _ hb h.lines, ?_, ?_⟩
  · exact List.Pairwise.sublist h.sub (increasing_setOf _)
  · intro e
    rw [Java.mem_ims _ _ h]
    simp only [Java.mem_keys, walk_mem]
    constructor
    · rintro ⟨⟨i, hi, rfl⟩, hf, hx⟩
      exact ⟨i, ⟨hi, hf, fun j hj hfj hn => hx _ ⟨j, hj, rfl⟩ hfj hn⟩, rfl⟩
    · rintro ⟨i, ⟨hi, hf, hx⟩, rfl⟩
      refine ⟨⟨i, hi, rfl⟩, hf, ?_⟩
      rintro _ ⟨j, hj, rfl⟩ hfj hn
      exact hx j hj hfj hn

/-- The first of two packages. -/
example :
    let i : Java.Import := ⟨.static "a".toList, .static "List".toList⟩
    let j : Java.Import := ⟨.static "b".toList, .static "List".toList⟩
    Chosen none [j, i] i ∧ ¬ Chosen none [j, i] j := by
  refine ⟨⟨by simp, by unfold Foreign; decide, ?_⟩, fun h => ?_⟩
  · intro j hj _ _
    simp only [List.mem_cons, List.not_mem_nil, or_false] at hj
    rcases hj with rfl | rfl <;> decide +kernel
  · exact absurd (h.2.2 ⟨.static "a".toList, .static "List".toList⟩ (by simp)
      (by unfold Foreign; decide) rfl) (by decide +kernel)

/-- C42. Exactly which references name the class their import asks for: those to
foreign classes, however they clash, and those to classes of `java.lang` or of the
own package whose simple name no foreign class and no class of the own package
takes. -/
theorem C42_denotes (package : Option ItemStr) (cfg : Config) (cs : List (Call Java.Import))
    (classes : Str → Str → Prop)
    (hb : losesSpace (Java.lang package (history cs)).langItem (history cs).items = false)
    (hp : ∀ i ∈ inserted cs, Proper classes i) :
    ∃ ims : List (Str × Str),
      toFileVec (Java.lang package (history cs)) cfg (Java.file package (history cs)) =
        (toVec (Java.lang package (history cs)) cfg (history cs).items).map (fileLines (paragraphs
          [(package.map (fun p => packageLine p.text)).toList,
           ims.map (fun e => importLine e.1 e.2)])) ∧
      ∀ i ∈ inserted cs, (Denotes ⟨package.map ItemStr.text, ims, classes⟩
        ((Java.lang package (history cs)).langItem i).flatten i.package.text i.name.text ↔
        (Foreign (package.map ItemStr.text) (target i) ∨
          Free (package.map ItemStr.text) classes ((inserted cs).map target) (target i))) := by
  obtain ⟨ims, h⟩ := Java.resolved_ok package (history cs).walkImports
  refine ⟨ims.map Java.pairText, ?_, ?_⟩
  · rw [Java.file_eq package cfg _ hb h.lines, List.map_map]
    rfl
  · intro i hi
    have hm : ∀ c, c ∈ (history cs).walkImports.map target ↔ c ∈ (inserted cs).map target := by
      intro c; simp only [List.mem_map, walk_mem]
    rw [← Java.free_congr hm]
    exact Java.denotes_iff package _ classes h (fun j hj => hp j ((walk_mem cs j).1 hj)) i
      ((walk_mem cs i).2 hi)

/-- C42, in part: every reference names the class its import asks for exactly if no
class of the own package or of `java.lang` shares its name with a foreign class (see
`C42_lang_witness`, `C42_own_witness`, `C42_shadow_witness`); then different classes
are written differently. Foreign classes may clash with each other. -/
theorem C42_java_partial (package : Option ItemStr) (cfg : Config) (cs : List (Call Java.Import))
    (classes : Str → Str → Prop)
    (hb : losesSpace (Java.lang package (history cs)).langItem (history cs).items = false)
    (hp : ∀ i ∈ inserted cs, Proper classes i) :
    ∃ ims : List (Str × Str),
      toFileVec (Java.lang package (history cs)) cfg (Java.file package (history cs)) =
        (toVec (Java.lang package (history cs)) cfg (history cs).items).map (fileLines (paragraphs
          [(package.map (fun p => packageLine p.text)).toList,
           ims.map (fun e => importLine e.1 e.2)])) ∧
      ((∀ i ∈ inserted cs, Denotes ⟨package.map ItemStr.text, ims, classes⟩
        ((Java.lang package (history cs)).langItem i).flatten i.package.text i.name.text) ↔
        Apart (package.map ItemStr.text) classes ((inserted cs).map target)) ∧
      (Apart (package.map ItemStr.text) classes ((inserted cs).map target) →
        ∀ i ∈ inserted cs, ∀ j ∈ inserted cs,
          ((Java.lang package (history cs)).langItem i).flatten =
            ((Java.lang package (history cs)).langItem j).flatten → target i = target j) := by
  obtain ⟨ims, hf, hd⟩ := C42_denotes package cfg cs classes hb hp
  have hall : (∀ i ∈ inserted cs, Denotes ⟨package.map ItemStr.text, ims, classes⟩
        ((Java.lang package (history cs)).langItem i).flatten i.package.text i.name.text) ↔
        Apart (package.map ItemStr.text) classes ((inserted cs).map target) := by
    rw [Java.apart_iff]
    constructor
    · intro h c hc
      obtain ⟨i, hi, rfl⟩ := List.mem_map.1 hc
      exact (hd i hi).1 (h i hi)
    · exact fun h i hi => (hd i hi).2 (h _ (List.mem_map.2 ⟨i, hi, rfl⟩))
  refine ⟨ims, hf, hall, fun ha i hi j hj he => ?_⟩
  have hj' := hall.2 ha j hj
  rw [← he] at hj'
  obtain ⟨h1, h2⟩ := Java.denotes_unique (hall.2 ha i hi) hj'
  exact Prod.ext h1 h2

/-- The stream of the examples: two classes of the same name, one of `java.lang`
and one of the own package. -/
def javaDemo : List (Call Java.Import) :=
  [.appendLang ⟨.static "java.util".toList, .static "List".toList⟩, .space,
   .appendLang ⟨.static "java.awt".toList, .static "List".toList⟩, .space,
   .appendLang ⟨.static "java.lang".toList, .static "String".toList⟩, .space,
   .appendLang ⟨.static "my.app".toList, .static "Main".toList⟩]

example : toFileVec (Java.lang (some (.static "my.app".toList)) (history javaDemo)) ⟨.space 4, ['\n']⟩
      (Java.file (some (.static "my.app".toList)) (history javaDemo)) =
    some ["package my.app;".toList, [], "import java.awt.List;".toList, [],
      "java.util.List List String Main".toList] := by decide +kernel

/-- The classes of the examples. -/
def javaWorld (p n : Str) : Prop :=
  (p, n) ∈ [("java.util".toList, "List".toList), ("java.awt".toList, "List".toList),
    ("java.lang".toList, "String".toList), ("my.app".toList, "Main".toList)]

instance (p n : Str) : Decidable (javaWorld p n) := by unfold javaWorld; infer_instance

theorem javaDemo_inserted : inserted javaDemo =
    [⟨.static "java.util".toList, .static "List".toList⟩, ⟨.static "java.awt".toList, .static "List".toList⟩,
     ⟨.static "java.lang".toList, .static "String".toList⟩,
     ⟨.static "my.app".toList, .static "Main".toList⟩] := rfl

instance (package : Option Str) (c : Str × Str) : Decidable (Foreign package c) := by
  unfold Foreign; infer_instance

example : losesSpace (Java.lang (some (.static "my.app".toList)) (history javaDemo)).langItem
      (history javaDemo).items = false ∧
    (∀ i ∈ inserted javaDemo, Proper javaWorld i) ∧
    Apart (some "my.app".toList) javaWorld ((inserted javaDemo).map target) := by
  refine ⟨by decide +kernel, ?_, ?_, ?_⟩
  · rw [javaDemo_inserted]; unfold Proper; decide +kernel
  · rw [javaDemo_inserted]; decide +kernel
  · rw [javaDemo_inserted]; decide +kernel

/-- C42: a class of `java.lang` and an imported class of the same name are both
written with the simple name, which then means the imported one. -/
theorem C42_lang_witness :
    let i : Java.Import := ⟨.static "java.lang".toList, .static "Object".toList⟩
    let j : Java.Import := ⟨.static "org".toList, .static "Object".toList⟩
    let t := history [Call.appendLang i, .space, .appendLang j]
    toFileVec (Java.lang none t) ⟨.space 4, ['\n']⟩ (Java.file none t) =
      some [importLine "org".toList "Object".toList, [], "Object Object".toList] ∧
    ∀ classes, ¬ Denotes ⟨none, [("org".toList, "Object".toList)], classes⟩
      ((Java.lang none t).langItem i).flatten i.package.text i.name.text := by
  refine ⟨by decide +kernel, fun classes h => ?_⟩
  have h' : Denotes ⟨none, [("org".toList, "Object".toList)], classes⟩ "Object".toList
      "org".toList "Object".toList :=
    .imported _ _ (by decide) (by simp) (by simp)
  have hr : ((Java.lang none (history [Call.appendLang
      (⟨.static "java.lang".toList, .static "Object".toList⟩ : Java.Import), .space,
      .appendLang ⟨.static "org".toList, .static "Object".toList⟩])).langItem
      ⟨.static "java.lang".toList, .static "Object".toList⟩).flatten = "Object".toList := by decide +kernel
  dsimp only at h
  rw [hr] at h
  exact absurd (Java.denotes_unique h h').1 (by decide)

/-- C42: the same for a class of the file's own package. -/
theorem C42_own_witness :
    let i : Java.Import := ⟨.static "app".toList, .static "Node".toList⟩
    let j : Java.Import := ⟨.static "org".toList, .static "Node".toList⟩
    let t := history [Call.appendLang i, .space, .appendLang j]
    let p := some (ItemStr.static "app".toList)
    toFileVec (Java.lang p t) ⟨.space 4, ['\n']⟩ (Java.file p t) =
      some [packageLine "app".toList, [], importLine "org".toList "Node".toList, [],
        "Node Node".toList] ∧
    ∀ classes, ¬ Denotes ⟨some "app".toList, [("org".toList, "Node".toList)], classes⟩
      ((Java.lang p t).langItem i).flatten i.package.text i.name.text := by
  refine ⟨by decide +kernel, fun classes h => ?_⟩
  have h' : Denotes ⟨some "app".toList, [("org".toList, "Node".toList)], classes⟩ "Node".toList
      "org".toList "Node".toList :=
    .imported _ _ (by decide) (by simp) (by simp)
  have hr : ((Java.lang (some (ItemStr.static "app".toList)) (history [Call.appendLang
      (⟨.static "app".toList, .static "Node".toList⟩ : Java.Import), .space,
      .appendLang ⟨.static "org".toList, .static "Node".toList⟩])).langItem
      ⟨.static "app".toList, .static "Node".toList⟩).flatten = "Node".toList := by decide +kernel
  dsimp only at h
  rw [hr] at h
  exact absurd (Java.denotes_unique h h').1 (by decide)

/-- C42: a class of `java.lang` is written with its simple name even if the own
package has a class of that name, which then is meant. -/
theorem C42_shadow_witness :
    let i : Java.Import := ⟨.static "java.lang".toList, .static "Record".toList⟩
    let t := history [Call.appendLang i]
    let p := some (ItemStr.static "app".toList)
    toFileVec (Java.lang p t) ⟨.space 4, ['\n']⟩ (Java.file p t) =
      some [packageLine "app".toList, [], "Record".toList] ∧
    ∀ classes : Str → Str → Prop, classes "app".toList "Record".toList →
      ¬ Denotes ⟨some "app".toList, [], classes⟩
        ((Java.lang p t).langItem i).flatten i.package.text i.name.text := by
  refine ⟨by decide +kernel, fun classes hc h => ?_⟩
  have h' : Denotes ⟨some "app".toList, [], classes⟩ "Record".toList "app".toList "Record".toList :=
    .own (s := ⟨some "app".toList, [], classes⟩) _ (by decide) (by simp) hc
  have hr : ((Java.lang (some (ItemStr.static "app".toList)) (history [Call.appendLang
      (⟨.static "java.lang".toList, .static "Record".toList⟩ : Java.Import)])).langItem
      ⟨.static "java.lang".toList, .static "Record".toList⟩).flatten = "Record".toList := by decide +kernel
  dsimp only at h
  rw [hr] at h
  exact absurd (Java.denotes_unique h h').1 (by decide)

/-- C49 for Java: header and choice of qualified names depend only on the set of
imports. -/
theorem C49_java (package : Option ItemStr) (cs ds : List (Call Java.Import))
    (h : ∀ i, i ∈ inserted cs ↔ i ∈ inserted ds) :
    (Java.file package (history cs)).head? = (Java.file package (history ds)).head? ∧
    Java.lang package (history cs) = Java.lang package (history ds) := by
  have hk : Java.resolved package (history cs).walkImports = Java.resolved package (history ds).walkImports := by
    have : Java.keys (history cs).walkImports = Java.keys (history ds).walkImports :=
      setOf_congr (by intro x; simp only [List.mem_map, walk_mem, h])
    unfold Java.keys at this
    unfold Java.resolved
    rw [this]
  have he : (history cs).walkImports.isEmpty = (history ds).walkImports.isEmpty := by
    rw [Bool.eq_iff_iff, List.isEmpty_iff, List.isEmpty_iff, List.eq_nil_iff_forall_not_mem,
      List.eq_nil_iff_forall_not_mem]
    simp only [walk_mem, h]
  constructor
  · simp only [Java.file, Java.header, Java.importCalls, hk, he, List.head?_cons]
  · simp only [Java.lang, hk]

/-- C50 for Java, in part: no import line twice if names contain no dot. -/
theorem C50_java_partial (package : Option ItemStr) (cfg : Config) (cs : List (Call Java.Import))
    (hb : losesSpace (Java.lang package (history cs)).langItem (history cs).items = false)
    (hn : ∀ i ∈ inserted cs, '.' ∉ i.name.text) :
    ∃ hd : List Str,
      toFileVec (Java.lang package (history cs)) cfg (Java.file package (history cs)) =
        (toVec (Java.lang package (history cs)) cfg (history cs).items).map (fileLines (paragraphs
          [(package.map (fun p => packageLine p.text)).toList, hd])) ∧ hd.Nodup := by
  obtain ⟨ims, h1, h2, h3, h4, h5⟩ := C42_header package cfg cs hb
  refine ⟨_, h1, nodup_map (Increasing.nodup h2) ?_⟩
  intro a ha b hb hab
  obtain ⟨⟨i, hi, rfl⟩, -⟩ := h4 a ha
  obtain ⟨⟨j, hj, rfl⟩, -⟩ := h4 b hb
  obtain ⟨-, e⟩ := Java.importLine_inj (hn i hi) (hn j hj) hab
  have : ∀ (l : List (ItemStr × ItemStr)) (a b : ItemStr × ItemStr), (l.map (·.2.text)).Nodup →
      a ∈ l → b ∈ l → a.2.text = b.2.text → a = b := by
    intro l a b hnd ha hb hab
    induction l with
    | nil => simp at ha
    | cons c l ih =>
      simp only [List.map_cons, List.nodup_cons, List.mem_map, not_exists, not_and] at hnd
      rcases List.mem_cons.1 ha with rfl | ha' <;> rcases List.mem_cons.1 hb with rfl | hb'
      · rfl
      · exact absurd hab.symm (hnd.1 b hb')
      · exact absurd hab (hnd.1 a ha')
      · exact ih hnd.2 ha' hb'
  exact this ims _ _ h3 ha hb e

/-- C50 for Java, exactly: no import line twice iff no two of the classes that are
imported have the same full path and different names. -/
theorem C50_java_exact_partial (package : Option ItemStr) (cfg : Config) (cs : List (Call Java.Import))
    (hb : losesSpace (Java.lang package (history cs)).langItem (history cs).items = false) :
    ∃ hd : List Str,
      toFileVec (Java.lang package (history cs)) cfg (Java.file package (history cs)) =
        (toVec (Java.lang package (history cs)) cfg (history cs).items).map (fileLines (paragraphs
          [(package.map (fun p => packageLine p.text)).toList, hd])) ∧
      (hd.Nodup ↔ ∀ i j, Chosen (package.map ItemStr.text) (inserted cs) i →
        Chosen (package.map ItemStr.text) (inserted cs) j →
        i.package.text ++ '.' :: i.name.text = j.package.text ++ '.' :: j.name.text →
        i.name.text = j.name.text) := by
  obtain ⟨ims, h1, h2, h3⟩ := C42_chosen package cfg cs hb
  refine ⟨_, h1, ?_⟩
  have key : ∀ i : Java.Import, importLine i.package.text i.name.text =
      "import ".toList ++ (i.package.text ++ '.' :: i.name.text) ++ [';'] := by
    intro i
    simp [importLine, command_ne]
  rw [List.nodup_map_iff_inj_on (Increasing.nodup h2)]
  constructor
  · intro h i j hi hj hij
    have := h _ ((h3 _).2 ⟨i, hi, rfl⟩) _ ((h3 _).2 ⟨j, hj, rfl⟩) (by simp only [key, hij])
    exact congrArg ItemStr.text (congrArg Prod.snd this)
  · intro h a ha b hb hab
    obtain ⟨i, hi, rfl⟩ := (h3 a).1 ha
    obtain ⟨j, hj, rfl⟩ := (h3 b).1 hb
    simp only [key] at hab
    have hn := h i j hi hj (List.append_cancel_left (List.append_cancel_right hab))
    have c1 := hi.2.2 j hj.1 hj.2.1 hn.symm
    have c2 := hj.2.2 i hi.1 hi.2.1 hn
    cases hc : compare (i.package, i.name) (j.package, j.name) with
    | eq => exact Std.LawfulEqCmp.eq_of_compare hc
    | gt => exact absurd hc c1
    | lt => exact absurd (Std.OrientedCmp.gt_of_lt hc) c2

/-- C50: two ways to split one path into package and name. -/
theorem C50_java_witness :
    let t := history [Call.appendLang (⟨.static "a".toList, .static "b.c".toList⟩ : Java.Import),
      .appendLang ⟨.static "a.b".toList, .static "c".toList⟩]
    toFileVec (Java.lang none t) ⟨.space 4, ['\n']⟩ (Java.file none t) =
      some ["import a.b.c;".toList, "import a.b.c;".toList, [], "b.cc".toList] := by decide +kernel

/-- C51 for Java. -/
theorem C51_java (package : Option ItemStr) (cfg : Config) (cs : List (Call Java.Import))
    (hb : losesSpace (Java.lang package (history cs)).langItem (history cs).items = false) :
    ∃ hd : List Str,
      toFileVec (Java.lang package (history cs)) cfg (Java.file package (history cs)) =
        (toVec (Java.lang package (history cs)) cfg (history cs).items).map (fileLines (paragraphs
          [(package.map (fun p => packageLine p.text)).toList, hd])) ∧
      (hd = [] ↔ ∀ i ∈ inserted cs, ¬ Foreign (package.map ItemStr.text) (target i)) := by
  obtain ⟨ims, h1, h2, h3, h4, h5⟩ := C42_header package cfg cs hb
  refine ⟨_, h1, ?_⟩
  rw [List.map_eq_nil_iff, List.eq_nil_iff_forall_not_mem]
  constructor
  · intro h i hi hf
    obtain ⟨e, he, -⟩ := h5 i hi hf
    exact h e he
  · intro h e he
    obtain ⟨⟨i, hi, rfl⟩, hf⟩ := h4 e he
    exact h i hi hf

end Genco.Props
