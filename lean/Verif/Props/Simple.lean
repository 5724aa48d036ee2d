import Verif.Proofs.Simple
import Verif.Props.Tokens

/-!
# Properties of Go, C, Swift and Dart files (C44, C46, C47 and their parts of C49–C51)
-/

set_option autoImplicit false

namespace Genco.Props

open Genco Spec

theorem walk_mem {ι : Type} (cs : List (Call ι)) (i : ι) : i ∈ (history cs).walkImports ↔ i ∈ inserted cs := by
  rw [C03_walk_imports]; simp

/-! ## Go -/

/-- C44. A Go file is the package line if any, one import per stored module path,
sorted, and the body, separated by blank lines. -/
theorem C44_go (package : Option ItemStr) (cfg : Config) (cs : List (Call Go.Import))
    (hb : losesSpace Go.lang.langItem (history cs).items = false) :
    ∃ ms : List ItemStr,
      toFileVec Go.lang cfg (Go.file package (history cs)) =
        (toVec Go.lang cfg (history cs).items).map (fileLines (paragraphs
          [(package.map (fun p => GoFile.packageLine p.text)).toList,
           ms.map (fun m => GoFile.importLine m.text)])) ∧
      Sorted ms ∧ ∀ m, m ∈ ms ↔ ∃ i ∈ inserted cs, i.module = m := by
  refine ⟨Go.keys (history cs).walkImports, Go.file_eq package cfg _ hb, increasing_setOf _, fun m => ?_⟩
  simp [Go.keys, walk_mem]

/-- C44. A reference is the last segment of the module path, a dot and the name. -/
theorem C44_reference (i : Go.Import) :
    ∃ seg, LastPart '/' i.module.text seg ∧ (Go.lang.langItem i).flatten = seg ++ '.' :: i.name.text :=
  ⟨_, lastSeg1_spec '/' i.module.text, by
    simp [Go.lang, goLang, baseLang, Go.Import.format]⟩

/-- C44 in terms of texts, in part: if all paths are stored the same way, each path
is imported once, in the order of the texts. -/
theorem C44_text_partial (package : Option ItemStr) (cfg : Config) (cs : List (Call Go.Import))
    (hb : losesSpace Go.lang.langItem (history cs).items = false)
    (hs : SameStorage (fun i : Go.Import => [i.module]) (inserted cs)) :
    ∃ ps : List Str,
      toFileVec Go.lang cfg (Go.file package (history cs)) =
        (toVec Go.lang cfg (history cs).items).map (fileLines (paragraphs
          [(package.map (fun p => GoFile.packageLine p.text)).toList, ps.map GoFile.importLine])) ∧
      Sorted ps ∧ ∀ p, p ∈ ps ↔ ∃ i ∈ inserted cs, i.module.text = p := by
  obtain ⟨ms, h1, h2, h3⟩ := C44_go package cfg cs hb
  refine ⟨ms.map ItemStr.text, ?_, sorted_map h2 ?_, fun p => ?_⟩
  · simpa [Function.comp_def] using h1
  · intro a ha b hb
    obtain ⟨i, hi, rfl⟩ := (h3 a).1 ha
    obtain ⟨j, hj, rfl⟩ := (h3 b).1 hb
    exact hs.compare hi hj (x := i.module) (y := j.module) (by simp) (by simp)
  · simp only [List.mem_map, h3]
    constructor
    · rintro ⟨m, ⟨i, hi, rfl⟩, rfl⟩; exact ⟨i, hi, rfl⟩
    · rintro ⟨i, hi, rfl⟩; exact ⟨_, ⟨i, hi, rfl⟩, rfl⟩

/-- The stream of the examples. -/
def goDemo : List (Call Go.Import) :=
  [.appendLang ⟨.static "net/http".toList, .static "Get".toList⟩, .space,
   .appendLang ⟨.static "fmt".toList, .static "Println".toList⟩, .space,
   .appendLang ⟨.static "net/http".toList, .static "Post".toList⟩]

example : toFileVec Go.lang ⟨.tab, ['\n']⟩ (Go.file (some (.static "main".toList)) (history goDemo)) =
    some ["package main".toList, [], "import \"fmt\"".toList, "import \"net/http\"".toList, [],
      "http.Get fmt.Println http.Post".toList] := by decide +kernel

example : losesSpace Go.lang.langItem (history goDemo).items = false ∧
    SameStorage (fun i : Go.Import => [i.module]) (inserted goDemo) := by
  refine ⟨by decide, .inl ?_⟩
  intro i hi x hx
  simp only [inserted, goDemo, callItems, List.flatMap_cons, List.flatMap_nil, List.append_nil,
    List.singleton_append, List.filterMap_cons, langOf, List.filterMap_nil, List.mem_cons,
    List.not_mem_nil, or_false] at hi hx
  rcases hi with rfl | rfl | rfl <;> exact ⟨_, hx⟩

/-- C44, C50: a path stored once boxed and once static is imported twice, and boxed
paths come before static ones whatever their texts. -/
theorem C44_storage_witness :
    toFileVec Go.lang ⟨.tab, ['\n']⟩ (Go.file none (history
      [.appendLang ⟨.static "a".toList, .static "x".toList⟩,
       .appendLang ⟨.box "a".toList, .static "x".toList⟩,
       .appendLang ⟨.box "b".toList, .static "x".toList⟩])) =
    some ["import \"a\"".toList, "import \"b\"".toList, "import \"a\"".toList, [],
      "a.xa.xb.x".toList] := by decide +kernel

/-- C49 for Go. -/
theorem C49_go (package : Option ItemStr) (cs ds : List (Call Go.Import))
    (h : ∀ i, i ∈ inserted cs ↔ i ∈ inserted ds) :
    (Go.file package (history cs)).head? = (Go.file package (history ds)).head? := by
  have hk : Go.keys (history cs).walkImports = Go.keys (history ds).walkImports :=
    setOf_congr (by intro m; simp [walk_mem, h])
  simp only [Go.file, Go.header, Go.importCalls_eq, hk, List.head?_cons]

example : ∀ i, i ∈ inserted goDemo ↔ i ∈ inserted (goDemo.reverse ++ goDemo) := by
  intro i
  simp [inserted, goDemo, callItems, langOf]
  tauto

/-- C50 for Go, in part: no import line twice exactly if equal paths are stored the
same way (see `C44_storage_witness`). -/
theorem C50_go_partial (package : Option ItemStr) (cfg : Config) (cs : List (Call Go.Import))
    (hb : losesSpace Go.lang.langItem (history cs).items = false) :
    ∃ hd : List Str,
      toFileVec Go.lang cfg (Go.file package (history cs)) =
        (toVec Go.lang cfg (history cs).items).map (fileLines (paragraphs
          [(package.map (fun p => GoFile.packageLine p.text)).toList, hd])) ∧
      (hd.Nodup ↔ Uniform (fun i : Go.Import => [i.module]) (inserted cs)) := by
  obtain ⟨ms, h1, h2, h3⟩ := C44_go package cfg cs hb
  refine ⟨_, h1, fun hd => ?_, fun hu => nodup_map (Increasing.nodup h2) ?_⟩
  · intro i hi j hj x hx y hy e
    rw [List.mem_singleton] at hx hy
    subst hx hy
    exact inj_of_nodup_map hd _ ((h3 _).2 ⟨i, hi, rfl⟩) _ ((h3 _).2 ⟨j, hj, rfl⟩) (by simp only [e])
  intro a ha b hb hab
  have := (stringLit_go (r := []) (r' := []) (by simpa using command_inj hab)).1
  obtain ⟨i, hi, rfl⟩ := (h3 a).1 ha
  obtain ⟨j, hj, rfl⟩ := (h3 b).1 hb
  exact hu i hi j hj _ (by simp) _ (by simp) this

/-- C51 for Go: package line, imports and body are paragraphs; each one is there
iff there is something to say. -/
theorem C51_go (package : Option ItemStr) (cfg : Config) (cs : List (Call Go.Import))
    (hb : losesSpace Go.lang.langItem (history cs).items = false) :
    ∃ hd : List Str,
      toFileVec Go.lang cfg (Go.file package (history cs)) =
        (toVec Go.lang cfg (history cs).items).map (fileLines (paragraphs
          [(package.map (fun p => GoFile.packageLine p.text)).toList, hd])) ∧
      (hd = [] ↔ inserted cs = []) := by
  obtain ⟨ms, h1, h2, h3⟩ := C44_go package cfg cs hb
  refine ⟨_, h1, ?_⟩
  rw [List.map_eq_nil_iff, List.eq_nil_iff_forall_not_mem, List.eq_nil_iff_forall_not_mem]
  simp only [h3]
  exact ⟨fun h i hi => h _ ⟨i, hi, rfl⟩, fun h m ⟨i, hi, _⟩ => h i hi⟩

/-! ## C -/

/-- C47. A C file includes every header once per storage and form, sorted. -/
theorem C47_c (cfg : Config) (cs : List (Call C.Import))
    (hb : losesSpace C.lang.langItem (history cs).items = false) :
    ∃ ms : List (ItemStr × Bool),
      toFileVec C.lang cfg (C.file (history cs)) =
        (toVec C.lang cfg (history cs).items).map
          (fileLines (ms.map (fun m => CFile.includeLine m.1.text m.2))) ∧
      Sorted ms ∧ ∀ m, m ∈ ms ↔ ∃ i ∈ inserted cs, (i.path, i.system) = m := by
  refine ⟨C.keys (history cs).walkImports, C.file_eq cfg _ hb, increasing_setOf _, fun m => ?_⟩
  simp [C.keys, walk_mem]

/-- C47 in terms of texts, in part: if all paths are stored the same way, each
header is included once in each form, in the order of the texts. -/
theorem C47_c_text_partial (cfg : Config) (cs : List (Call C.Import))
    (hb : losesSpace C.lang.langItem (history cs).items = false)
    (hs : SameStorage (fun i : C.Import => [i.path]) (inserted cs)) :
    ∃ ps : List (Str × Bool),
      toFileVec C.lang cfg (C.file (history cs)) =
        (toVec C.lang cfg (history cs).items).map
          (fileLines (ps.map (fun m => CFile.includeLine m.1 m.2))) ∧
      Sorted ps ∧ ∀ p, p ∈ ps ↔ ∃ i ∈ inserted cs, (i.path.text, i.system) = p := by
  obtain ⟨ms, h1, h2, h3⟩ := C47_c cfg cs hb
  refine ⟨ms.map (fun m => (m.1.text, m.2)), ?_, sorted_map h2 ?_, fun p => ?_⟩
  · simpa [Function.comp_def] using h1
  · intro a ha b hb
    obtain ⟨i, hi, rfl⟩ := (h3 a).1 ha
    obtain ⟨j, hj, rfl⟩ := (h3 b).1 hb
    rw [compare_pair, compare_pair, hs.compare hi hj (x := i.path) (y := j.path) (by simp) (by simp)]
  · simp only [List.mem_map, h3]
    constructor
    · rintro ⟨m, ⟨i, hi, rfl⟩, rfl⟩; exact ⟨i, hi, rfl⟩
    · rintro ⟨i, hi, rfl⟩; exact ⟨_, ⟨i, hi, rfl⟩, rfl⟩

/-- The stream of the examples. -/
def cDemo : List (Call C.Import) :=
  [.appendLang ⟨.static "stdio.h".toList, .static "printf".toList, true⟩, .space,
   .appendLang ⟨.static "a/b.h".toList, .static "foo".toList, false⟩, .space,
   .appendLang ⟨.static "a/b.h".toList, .static "bar".toList, true⟩, .space,
   .appendLang ⟨.static "stdio.h".toList, .static "puts".toList, true⟩]

example : toFileVec C.lang ⟨.tab, ['\n']⟩ (C.file (history cDemo)) =
    some ["#include \"a/b.h\"".toList, "#include <a/b.h>".toList, "#include <stdio.h>".toList, [],
      "printf foo bar puts".toList] := by decide +kernel

example : losesSpace C.lang.langItem (history cDemo).items = false ∧
    SameStorage (fun i : C.Import => [i.path]) (inserted cDemo) := by
  refine ⟨by decide, .inl ?_⟩
  intro i hi x hx
  simp only [inserted, cDemo, callItems, List.flatMap_cons, List.flatMap_nil, List.append_nil,
    List.singleton_append, List.filterMap_cons, langOf, List.filterMap_nil, List.mem_cons,
    List.not_mem_nil, or_false] at hi hx
  rcases hi with rfl | rfl | rfl | rfl <;> exact ⟨_, hx⟩

/-- C47, C50: a header stored once boxed and once static is included twice. -/
theorem C47_c_storage_witness :
    toFileVec C.lang ⟨.tab, ['\n']⟩ (C.file (history
      [.appendLang ⟨.static "a.h".toList, .static "x".toList, false⟩,
       .appendLang ⟨.box "a.h".toList, .static "y".toList, false⟩])) =
    some ["#include \"a.h\"".toList, "#include \"a.h\"".toList, [], "xy".toList] := by decide +kernel

/-- C49 for C. -/
theorem C49_c (cs ds : List (Call C.Import)) (h : ∀ i, i ∈ inserted cs ↔ i ∈ inserted ds) :
    (C.file (history cs)).head? = (C.file (history ds)).head? := by
  have hk : setOf ((history cs).walkImports.map (fun i : C.Import => (i.path, i.system))) =
      setOf ((history ds).walkImports.map (fun i : C.Import => (i.path, i.system))) :=
    setOf_congr (by intro m; simp [walk_mem, h])
  simp only [C.file, C.header, C.importCalls, hk, List.head?_cons]

/-- C50 for C, in part: no line twice exactly if equal paths of the same kind are
stored the same way. -/
theorem C50_c_partial (cfg : Config) (cs : List (Call C.Import))
    (hb : losesSpace C.lang.langItem (history cs).items = false) :
    ∃ hd : List Str,
      toFileVec C.lang cfg (C.file (history cs)) =
        (toVec C.lang cfg (history cs).items).map (fileLines hd) ∧
      (hd.Nodup ↔ ∀ i ∈ inserted cs, ∀ j ∈ inserted cs, i.path.text = j.path.text →
        i.system = j.system → i.path = j.path) := by
  obtain ⟨ms, h1, h2, h3⟩ := C47_c cfg cs hb
  refine ⟨_, h1, fun hd => ?_, fun hu => nodup_map (Increasing.nodup h2) ?_⟩
  · intro i hi j hj e e'
    exact congrArg Prod.fst (inj_of_nodup_map hd _ ((h3 _).2 ⟨i, hi, rfl⟩) _ ((h3 _).2 ⟨j, hj, rfl⟩)
      (by simp only [e, e']))
  intro a ha b hb hab
  obtain ⟨e1, e2⟩ := C.includeLine_inj hab
  obtain ⟨i, hi, rfl⟩ := (h3 a).1 ha
  obtain ⟨j, hj, rfl⟩ := (h3 b).1 hb
  exact Prod.ext (hu i hi j hj e1 e2) e2

/-- C51 for C. -/
theorem C51_c (cfg : Config) (cs : List (Call C.Import))
    (hb : losesSpace C.lang.langItem (history cs).items = false) :
    ∃ hd : List Str,
      toFileVec C.lang cfg (C.file (history cs)) =
        (toVec C.lang cfg (history cs).items).map (fileLines hd) ∧
      (hd = [] ↔ inserted cs = []) := by
  obtain ⟨ms, h1, h2, h3⟩ := C47_c cfg cs hb
  refine ⟨_, h1, ?_⟩
  rw [List.map_eq_nil_iff, List.eq_nil_iff_forall_not_mem, List.eq_nil_iff_forall_not_mem]
  simp only [h3]
  exact ⟨fun h i hi => h _ ⟨i, hi, rfl⟩, fun h m ⟨i, hi, _⟩ => h i hi⟩

/-! ## Swift -/

/-- C47. A Swift file imports every stored module once, sorted. -/
theorem C47_swift (cfg : Config) (cs : List (Call Swift.Import))
    (hb : losesSpace Swift.lang.langItem (history cs).items = false) :
    ∃ ms : List ItemStr,
      toFileVec Swift.lang cfg (Swift.file (history cs)) =
        (toVec Swift.lang cfg (history cs).items).map
          (fileLines (ms.map (fun m => SwiftFile.importLine m.text))) ∧
      Sorted ms ∧ ∀ m, m ∈ ms ↔ ∃ i ∈ inserted cs, i.module = m := by
  refine ⟨Swift.keys (history cs).walkImports, Swift.file_eq cfg _ hb, increasing_setOf _, fun m => ?_⟩
  simp [Swift.keys, walk_mem]

/-- C47 in terms of texts, in part: as for C. -/
theorem C47_swift_text_partial (cfg : Config) (cs : List (Call Swift.Import))
    (hb : losesSpace Swift.lang.langItem (history cs).items = false)
    (hs : SameStorage (fun i : Swift.Import => [i.module]) (inserted cs)) :
    ∃ ps : List Str,
      toFileVec Swift.lang cfg (Swift.file (history cs)) =
        (toVec Swift.lang cfg (history cs).items).map (fileLines (ps.map SwiftFile.importLine)) ∧
      Sorted ps ∧ ∀ p, p ∈ ps ↔ ∃ i ∈ inserted cs, i.module.text = p := by
  obtain ⟨ms, h1, h2, h3⟩ := C47_swift cfg cs hb
  refine ⟨ms.map ItemStr.text, ?_, sorted_map h2 ?_, fun p => ?_⟩
  · simpa [Function.comp_def] using h1
  · intro a ha b hb
    obtain ⟨i, hi, rfl⟩ := (h3 a).1 ha
    obtain ⟨j, hj, rfl⟩ := (h3 b).1 hb
    exact hs.compare hi hj (x := i.module) (y := j.module) (by simp) (by simp)
  · simp only [List.mem_map, h3]
    constructor
    · rintro ⟨m, ⟨i, hi, rfl⟩, rfl⟩; exact ⟨i, hi, rfl⟩
    · rintro ⟨i, hi, rfl⟩; exact ⟨_, ⟨i, hi, rfl⟩, rfl⟩

/-- The stream of the examples. -/
def swiftDemo : List (Call Swift.Import) :=
  [.appendLang ⟨.static "UIKit".toList, .static "View".toList⟩, .space,
   .appendLang ⟨.static "Foundation".toList, .static "Data".toList⟩, .space,
   .appendLang ⟨.static "UIKit".toList, .static "Color".toList⟩]

example : toFileVec Swift.lang ⟨.tab, ['\n']⟩ (Swift.file (history swiftDemo)) =
    some ["import Foundation".toList, "import UIKit".toList, [], "View Data Color".toList] := by
  decide +kernel

example : losesSpace Swift.lang.langItem (history swiftDemo).items = false ∧
    SameStorage (fun i : Swift.Import => [i.module]) (inserted swiftDemo) := by
  refine ⟨by decide, .inl ?_⟩
  intro i hi x hx
  simp only [inserted, swiftDemo, callItems, List.flatMap_cons, List.flatMap_nil, List.append_nil,
    List.singleton_append, List.filterMap_cons, langOf, List.filterMap_nil, List.mem_cons,
    List.not_mem_nil, or_false] at hi hx
  rcases hi with rfl | rfl | rfl <;> exact ⟨_, hx⟩

/-- C47, C50: a module stored once boxed and once static is imported twice. -/
theorem C47_swift_storage_witness :
    toFileVec Swift.lang ⟨.tab, ['\n']⟩ (Swift.file (history
      [.appendLang ⟨.static "M".toList, .static "x".toList⟩,
       .appendLang ⟨.box "M".toList, .static "y".toList⟩])) =
    some ["import M".toList, "import M".toList, [], "xy".toList] := by decide +kernel

/-- C49 for Swift. -/
theorem C49_swift (cs ds : List (Call Swift.Import)) (h : ∀ i, i ∈ inserted cs ↔ i ∈ inserted ds) :
    (Swift.file (history cs)).head? = (Swift.file (history ds)).head? := by
  have hk : setOf ((history cs).walkImports.map Swift.Import.module) =
      setOf ((history ds).walkImports.map Swift.Import.module) :=
    setOf_congr (by intro m; simp [walk_mem, h])
  simp only [Swift.file, Swift.header, Swift.importCalls, hk, List.head?_cons]

/-- C50 for Swift, in part: no line twice exactly if equal modules are stored the same
way. -/
theorem C50_swift_partial (cfg : Config) (cs : List (Call Swift.Import))
    (hb : losesSpace Swift.lang.langItem (history cs).items = false) :
    ∃ hd : List Str,
      toFileVec Swift.lang cfg (Swift.file (history cs)) =
        (toVec Swift.lang cfg (history cs).items).map (fileLines hd) ∧
      (hd.Nodup ↔ Uniform (fun i : Swift.Import => [i.module]) (inserted cs)) := by
  obtain ⟨ms, h1, h2, h3⟩ := C47_swift cfg cs hb
  refine ⟨_, h1, fun hd => ?_, fun hu => nodup_map (Increasing.nodup h2) ?_⟩
  · intro i hi j hj x hx y hy e
    rw [List.mem_singleton] at hx hy
    subst hx hy
    exact inj_of_nodup_map hd _ ((h3 _).2 ⟨i, hi, rfl⟩) _ ((h3 _).2 ⟨j, hj, rfl⟩) (by simp only [e])
  intro a ha b hb hab
  obtain ⟨i, hi, rfl⟩ := (h3 a).1 ha
  obtain ⟨j, hj, rfl⟩ := (h3 b).1 hb
  exact hu i hi j hj _ (by simp) _ (by simp) (command_inj hab)

/-- C51 for Swift. -/
theorem C51_swift (cfg : Config) (cs : List (Call Swift.Import))
    (hb : losesSpace Swift.lang.langItem (history cs).items = false) :
    ∃ hd : List Str,
      toFileVec Swift.lang cfg (Swift.file (history cs)) =
        (toVec Swift.lang cfg (history cs).items).map (fileLines hd) ∧
      (hd = [] ↔ inserted cs = []) := by
  obtain ⟨ms, h1, h2, h3⟩ := C47_swift cfg cs hb
  refine ⟨_, h1, ?_⟩
  rw [List.map_eq_nil_iff, List.eq_nil_iff_forall_not_mem, List.eq_nil_iff_forall_not_mem]
  simp only [h3]
  exact ⟨fun h i hi => h _ ⟨i, hi, rfl⟩, fun h m ⟨i, hi, _⟩ => h i hi⟩

/-! ## Dart -/

/-- C46. A Dart file has one import per stored pair of path and alias, sorted, and
none for the core library. -/
theorem C46_dart (cfg : Config) (cs : List (Call Dart.Import))
    (hb : losesSpace Dart.lang.langItem (history cs).items = false) :
    ∃ ms : List (ItemStr × Option ItemStr),
      toFileVec Dart.lang cfg (Dart.file (history cs)) =
        (toVec Dart.lang cfg (history cs).items).map
          (fileLines (ms.map (fun m => DartFile.importLine m.1.text (m.2.map ItemStr.text)))) ∧
      Sorted ms ∧ ∀ m, m ∈ ms ↔
        ∃ i ∈ inserted cs, i.path.text ≠ DartFile.coreLibrary ∧ (i.path, i.alias) = m := by
  refine ⟨Dart.keys (history cs).walkImports, Dart.file_eq cfg _ hb, increasing_setOf _, fun m => ?_⟩
  rw [Dart.mem_keys]
  simp only [walk_mem]
  rfl

/-- C46. A reference is the name, with the alias of its library in front if there
is one; unless the library is the core library, the file imports the library under
that alias, or without alias. -/
theorem C46_reference (cfg : Config) (cs : List (Call Dart.Import))
    (hb : losesSpace Dart.lang.langItem (history cs).items = false) :
    ∃ hd : List Str,
      toFileVec Dart.lang cfg (Dart.file (history cs)) =
        (toVec Dart.lang cfg (history cs).items).map (fileLines hd) ∧
      ∀ i ∈ inserted cs, i.path.text ≠ DartFile.coreLibrary →
        ∃ a : Option Str, DartFile.importLine i.path.text a ∈ hd ∧
          (Dart.lang.langItem i).flatten = (match a with
            | some a => a ++ '.' :: i.name.text
            | none => i.name.text) := by
  obtain ⟨ms, h1, -, h3⟩ := C46_dart cfg cs hb
  refine ⟨_, h1, fun i hi hne => ⟨i.alias.map ItemStr.text, ?_, ?_⟩⟩
  · exact List.mem_map.2 ⟨(i.path, i.alias), (h3 _).2 ⟨i, hi, hne, rfl⟩, rfl⟩
  · cases h : i.alias <;> simp [Dart.lang, dartLang, Dart.Import.format, h]

/-- C46 in terms of texts, in part: if all texts are stored the same way, each pair
is imported once, in the order of the texts. -/
theorem C46_text_partial (cfg : Config) (cs : List (Call Dart.Import))
    (hb : losesSpace Dart.lang.langItem (history cs).items = false)
    (hs : SameStorage (fun i : Dart.Import => i.path :: i.alias.toList) (inserted cs)) :
    ∃ ps : List (Str × Option Str),
      toFileVec Dart.lang cfg (Dart.file (history cs)) =
        (toVec Dart.lang cfg (history cs).items).map
          (fileLines (ps.map (fun m => DartFile.importLine m.1 m.2))) ∧
      Sorted ps ∧ ∀ p, p ∈ ps ↔ ∃ i ∈ inserted cs,
        i.path.text ≠ DartFile.coreLibrary ∧ (i.path.text, i.alias.map ItemStr.text) = p := by
  obtain ⟨ms, h1, h2, h3⟩ := C46_dart cfg cs hb
  refine ⟨ms.map (fun m => (m.1.text, m.2.map ItemStr.text)), ?_, sorted_map h2 ?_, fun p => ?_⟩
  · simpa [Function.comp_def] using h1
  · intro a ha b hb
    obtain ⟨i, hi, -, rfl⟩ := (h3 a).1 ha
    obtain ⟨j, hj, -, rfl⟩ := (h3 b).1 hb
    have e1 := hs.compare hi hj (x := i.path) (y := j.path) (by simp) (by simp)
    have e2 : compare i.alias j.alias = compare (i.alias.map ItemStr.text) (j.alias.map ItemStr.text) := by
      cases ha : i.alias with
      | none => cases hb : j.alias <;> rfl
      | some x =>
        cases hb : j.alias with
        | none => rfl
        | some y => exact hs.compare hi hj (x := x) (y := y) (by simp [ha]) (by simp [hb])
    rw [compare_pair, compare_pair]
    simp only [e1, e2]
  · simp only [List.mem_map, h3]
    constructor
    · rintro ⟨m, ⟨i, hi, hc, rfl⟩, rfl⟩; exact ⟨i, hi, hc, rfl⟩
    · rintro ⟨i, hi, hc, rfl⟩; exact ⟨_, ⟨i, hi, hc, rfl⟩, rfl⟩

/-- The stream of the examples. -/
def dartDemo : List (Call Dart.Import) :=
  [.appendLang ⟨.static "package:http/http.dart".toList, .static "get".toList, some (.static "h".toList)⟩,
   .space,
   .appendLang ⟨.static "dart:core".toList, .static "int".toList, none⟩, .space,
   .appendLang ⟨.static "dart:math".toList, .static "Random".toList, none⟩, .space,
   .appendLang ⟨.static "package:http/http.dart".toList, .static "Client".toList, none⟩]

example : toFileVec Dart.lang ⟨.tab, ['\n']⟩ (Dart.file (history dartDemo)) =
    some ["import \"dart:math\";".toList, "import \"package:http/http.dart\";".toList,
      "import \"package:http/http.dart\" as h;".toList, [], "h.get int Random Client".toList] := by
  decide +kernel

example : losesSpace Dart.lang.langItem (history dartDemo).items = false ∧
    SameStorage (fun i : Dart.Import => i.path :: i.alias.toList) (inserted dartDemo) := by
  refine ⟨by decide, .inl ?_⟩
  intro i hi x hx
  simp only [inserted, dartDemo, callItems, List.flatMap_cons, List.flatMap_nil, List.append_nil,
    List.singleton_append, List.filterMap_cons, langOf, List.filterMap_nil, List.mem_cons,
    List.not_mem_nil, or_false] at hi hx
  rcases hi with rfl | rfl | rfl | rfl <;> simp at hx <;> first | exact ⟨_, hx⟩ | (rcases hx with hx | hx <;> exact ⟨_, hx⟩)

/-- C46: a reference to the core library under an alias refers to an alias that is
not declared anywhere; and a path in two storages is imported twice. -/
theorem C46_core_alias_witness :
    toFileVec Dart.lang ⟨.tab, ['\n']⟩ (Dart.file (history
      [.appendLang ⟨.static "dart:core".toList, .static "int".toList, some (.static "c".toList)⟩])) =
    some ["c.int".toList] ∧
    toFileVec Dart.lang ⟨.tab, ['\n']⟩ (Dart.file (history
      [.appendLang ⟨.static "a".toList, .static "x".toList, none⟩,
       .appendLang ⟨.box "a".toList, .static "y".toList, none⟩])) =
    some ["import \"a\";".toList, "import \"a\";".toList, [], "xy".toList] := by decide +kernel

/-- C49 for Dart. -/
theorem C49_dart (cs ds : List (Call Dart.Import)) (h : ∀ i, i ∈ inserted cs ↔ i ∈ inserted ds) :
    (Dart.file (history cs)).head? = (Dart.file (history ds)).head? := by
  have hk : Dart.keys (history cs).walkImports = Dart.keys (history ds).walkImports :=
    setOf_congr (by intro m; simp [walk_mem, h])
  simp only [Dart.keys] at hk
  simp only [Dart.file, Dart.header, Dart.importCalls, hk, List.head?_cons]

/-- C50 for Dart, in part: no line twice exactly if equal texts are stored the same
way, in imports that are not of the core library. -/
theorem C50_dart_partial (cfg : Config) (cs : List (Call Dart.Import))
    (hb : losesSpace Dart.lang.langItem (history cs).items = false) :
    ∃ hd : List Str,
      toFileVec Dart.lang cfg (Dart.file (history cs)) =
        (toVec Dart.lang cfg (history cs).items).map (fileLines hd) ∧
      (hd.Nodup ↔ ∀ i ∈ inserted cs, ∀ j ∈ inserted cs, i.path.text ≠ DartFile.coreLibrary →
        i.path.text = j.path.text → i.alias.map ItemStr.text = j.alias.map ItemStr.text →
        i.path = j.path ∧ i.alias = j.alias) := by
  obtain ⟨ms, h1, h2, h3⟩ := C46_dart cfg cs hb
  refine ⟨_, h1, fun hd => ?_, fun hu => nodup_map (Increasing.nodup h2) ?_⟩
  · intro i hi j hj hc e e'
    have := inj_of_nodup_map hd _ ((h3 _).2 ⟨i, hi, hc, rfl⟩) _ ((h3 _).2 ⟨j, hj, e ▸ hc, rfl⟩)
      (by simp only [e, e'])
    exact ⟨congrArg Prod.fst this, congrArg Prod.snd this⟩
  intro a ha b hb hab
  obtain ⟨e1, e2⟩ := Dart.importLine_inj hab
  obtain ⟨i, hi, hc, rfl⟩ := (h3 a).1 ha
  obtain ⟨j, hj, -, rfl⟩ := (h3 b).1 hb
  obtain ⟨h, h'⟩ := hu i hi j hj hc e1 e2
  exact Prod.ext h h'

/-- C51 for Dart. -/
theorem C51_dart (cfg : Config) (cs : List (Call Dart.Import))
    (hb : losesSpace Dart.lang.langItem (history cs).items = false) :
    ∃ hd : List Str,
      toFileVec Dart.lang cfg (Dart.file (history cs)) =
        (toVec Dart.lang cfg (history cs).items).map (fileLines hd) ∧
      (hd = [] ↔ ∀ i ∈ inserted cs, i.path.text = DartFile.coreLibrary) := by
  obtain ⟨ms, h1, h2, h3⟩ := C46_dart cfg cs hb
  refine ⟨_, h1, ?_⟩
  rw [List.map_eq_nil_iff, List.eq_nil_iff_forall_not_mem]
  simp only [h3]
  exact ⟨fun h i hi => Classical.byContradiction fun hc => h _ ⟨i, hi, hc, rfl⟩,
    fun h m ⟨i, hi, hc, _⟩ => hc (h i hi)⟩

end Genco.Props
