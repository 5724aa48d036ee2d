import Verif.Proofs.Worded
import Verif.Props.Rust
import Verif.Props.Python
import Verif.Props.Js
import Verif.Props.Simple
import Verif.Props.Java
import Verif.Props.Nix

/-!
# Imports made from texts (C98)

Imports made from texts, of whatever type, are sorted by text, and what is declared is
declared once.
-/

set_option autoImplicit false

namespace Genco.Props

open Genco Spec

/-- C98. Whatever the type of a text, it is stored the same way, so that texts are equal
as `ItemStr` exactly if they are equal, and are compared as texts. -/
theorem C98_into (v w : Wording) :
    (v.into = w.into ↔ v.into.text = w.into.text) ∧
      compare v.into w.into = compare v.into.text w.into.text :=
  ⟨⟨fun h => congrArg _ h, v.boxed.ext w.boxed⟩, v.boxed.compare w.boxed⟩

example : (Wording.str "a".toList).into = (Wording.cow true "a".toList).into := by decide

/-- Not so if an `ItemStr` is given that is not boxed. -/
example : (ItemStr.static "a".toList) ≠ (Wording.str "a".toList).into ∧
    (ItemStr.static "a".toList).text = (Wording.str "a".toList).into.text := by decide

/-! ## Go, Swift, C, Dart -/

/-- C98, Go. -/
theorem C98_go (package : Option ItemStr) (cfg : Config) (cs : List (Call Go.Import))
    (hb : losesSpace Go.lang.langItem (history cs).items = false) (hw : ∀ i ∈ inserted cs, i.Worded) :
    ∃ ps : List Str,
      toFileVec Go.lang cfg (Go.file package (history cs)) =
        (toVec Go.lang cfg (history cs).items).map (fileLines (paragraphs
          [(package.map (fun p => GoFile.packageLine p.text)).toList, ps.map GoFile.importLine])) ∧
      Lists ps fun p => ∃ i ∈ inserted cs, i.module.text = p := by
  refine C44_text_partial package cfg cs hb (.inr fun i hi x hx => ?_)
  obtain rfl := List.mem_singleton.1 hx
  exact (hw i hi).boxed

/-- C98, Swift. -/
theorem C98_swift (cfg : Config) (cs : List (Call Swift.Import))
    (hb : losesSpace Swift.lang.langItem (history cs).items = false) (hw : ∀ i ∈ inserted cs, i.Worded) :
    ∃ ps : List Str,
      toFileVec Swift.lang cfg (Swift.file (history cs)) =
        (toVec Swift.lang cfg (history cs).items).map (fileLines (ps.map SwiftFile.importLine)) ∧
      Lists ps fun p => ∃ i ∈ inserted cs, i.module.text = p := by
  refine C47_swift_text_partial cfg cs hb (.inr fun i hi x hx => ?_)
  obtain rfl := List.mem_singleton.1 hx
  exact (hw i hi).boxed

/-- C98, C. -/
theorem C98_c (cfg : Config) (cs : List (Call C.Import))
    (hb : losesSpace C.lang.langItem (history cs).items = false) (hw : ∀ i ∈ inserted cs, i.Worded) :
    ∃ ps : List (Str × Bool),
      toFileVec C.lang cfg (C.file (history cs)) =
        (toVec C.lang cfg (history cs).items).map
          (fileLines (ps.map (fun m => CFile.includeLine m.1 m.2))) ∧
      Lists ps fun p => ∃ i ∈ inserted cs, (i.path.text, i.system) = p := by
  refine C47_c_text_partial cfg cs hb (.inr fun i hi x hx => ?_)
  obtain rfl := List.mem_singleton.1 hx
  exact (hw i hi).boxed

/-- C98, Dart. -/
theorem C98_dart (cfg : Config) (cs : List (Call Dart.Import))
    (hb : losesSpace Dart.lang.langItem (history cs).items = false) (hw : ∀ i ∈ inserted cs, i.Worded) :
    ∃ ps : List (Str × Option Str),
      toFileVec Dart.lang cfg (Dart.file (history cs)) =
        (toVec Dart.lang cfg (history cs).items).map
          (fileLines (ps.map (fun m => DartFile.importLine m.1 m.2))) ∧
      Lists ps fun p => ∃ i ∈ inserted cs,
        i.path.text ≠ DartFile.coreLibrary ∧ (i.path.text, i.alias.map ItemStr.text) = p := by
  refine C46_text_partial cfg cs hb (.inr fun i hi x hx => ?_)
  rcases List.mem_cons.1 hx with rfl | hx
  · exact (hw i hi).boxed.1
  · exact (hw i hi).boxed.2 x (Option.mem_toList.1 hx)

/-- A path given as `&str` and as `String` is imported once. -/
example : toFileVec Go.lang ⟨.tab, ['\n']⟩ (Go.file none (history
      [.appendLang (Go.import_ (Wording.str "fmt".toList).into (Wording.str "Print".toList).into), .space,
       .appendLang (Go.import_ (Wording.string "fmt".toList).into (Wording.str "Scan".toList).into)])) =
    some ["import \"fmt\"".toList, [], "fmt.Print fmt.Scan".toList] := by decide +kernel

example : ∀ i ∈ inserted (ι := Go.Import)
      [.appendLang (Go.import_ (Wording.str "fmt".toList).into (Wording.str "Print".toList).into), .space,
       .appendLang (Go.import_ (Wording.string "fmt".toList).into (Wording.str "Scan".toList).into)], i.Worded := by
  intro i hi
  simp [inserted, callItems, langOf] at hi
  rcases hi with rfl | rfl <;> exact ⟨_, _, rfl⟩

/-- The streams of the examples. -/
def wordedC : List (Call C.Import) :=
  [.appendLang (C.includeSystem (Wording.str "stdio.h".toList).into (Wording.str "puts".toList).into), .space,
   .appendLang (C.includeSystem (Wording.string "stdio.h".toList).into (Wording.rc "getc".toList).into), .space,
   .appendLang (C.include_ (Wording.cow true "a.h".toList).into (Wording.str "f".toList).into)]

def wordedSwift : List (Call Swift.Import) :=
  [.appendLang (Swift.import_ (Wording.str "UIKit".toList).into (Wording.str "View".toList).into), .space,
   .appendLang (Swift.import_ (Wording.string "UIKit".toList).into (Wording.rc "Color".toList).into), .space,
   .appendLang (Swift.import_ (Wording.cow true "Dispatch".toList).into (Wording.str "Queue".toList).into)]

def wordedDart : List (Call Dart.Import) :=
  [.appendLang (Dart.build (Wording.str "dart:io".toList).into (Wording.str "File".toList).into []), .space,
   .appendLang (Dart.build (Wording.string "dart:io".toList).into (Wording.rc "Link".toList).into []), .space,
   .appendLang (Dart.build (Wording.cow true "dart:io".toList).into (Wording.str "File".toList).into
      [(Wording.str "i".toList).into])]

example : toFileVec C.lang ⟨.tab, ['\n']⟩ (C.file (history wordedC)) =
      some ["#include \"a.h\"".toList, "#include <stdio.h>".toList, [], "puts getc f".toList] ∧
    toFileVec Swift.lang ⟨.tab, ['\n']⟩ (Swift.file (history wordedSwift)) =
      some ["import Dispatch".toList, "import UIKit".toList, [], "View Color Queue".toList] ∧
    toFileVec Dart.lang ⟨.tab, ['\n']⟩ (Dart.file (history wordedDart)) =
      some ["import \"dart:io\";".toList, "import \"dart:io\" as i;".toList, [], "File Link i.File".toList] := by
  decide +kernel

example : (∀ i ∈ inserted wordedC, i.Worded) ∧ (∀ i ∈ inserted wordedSwift, i.Worded) ∧
    ∀ i ∈ inserted wordedDart, i.Worded := by
  refine ⟨?_, ?_, ?_⟩ <;> intro i hi <;>
    simp [inserted, wordedC, wordedSwift, wordedDart, callItems, langOf] at hi
  · rcases hi with rfl | rfl | rfl
    · exact ⟨_, _, .inr rfl⟩
    · exact ⟨_, _, .inr rfl⟩
    · exact ⟨_, _, .inl rfl⟩
  · rcases hi with rfl | rfl | rfl <;> exact ⟨_, _, rfl⟩
  · rcases hi with rfl | rfl | rfl
    · exact ⟨_, _, [], rfl⟩
    · exact ⟨_, _, [], rfl⟩
    · exact ⟨_, _, [.str "i".toList], rfl⟩

/-! ## Rust -/

/-- C98, Rust: there is one declaration for each module, and it has each thing asked for
once; all sorted by text. -/
theorem C98_rust (c : Rust.Mode) (cfg : Config) (cs : List (Call Rust.Import))
    (hb : losesSpace (Rust.lang c).langItem (history cs).items = false)
    (hw : ∀ i ∈ inserted cs, i.Worded) :
    ∃ gs : List RustFile.Group,
      toFileVec (Rust.lang c) cfg (Rust.file c (history cs)) =
        (toVec (Rust.lang c) cfg (history cs).items).map (fileLines (gs.map (·.use.text))) ∧
      Lists (gs.map (·.module)) (fun m =>
        ∃ i ∈ inserted cs, (RustFile.moduleOf i).text = m ∧ RustFile.Needs c i) ∧
      ∀ g ∈ gs, g.For c (inserted cs) := by
  have hm : ∀ i, i ∈ (history cs).walkImports ↔ i ∈ inserted cs := walk_mem cs
  obtain ⟨h1, h2⟩ := Rust.groups_ok c (history cs).walkImports (fun i hi => hw i ((hm i).1 hi))
  refine ⟨Rust.groups (Rust.modules c (history cs).walkImports), ?_, ⟨h1.1, fun x => ?_⟩, fun g hg => ?_⟩
  · rw [Rust.file_eq c cfg _ hb, ← Rust.groups_uses, List.map_map]
    rfl
  · have := h1.2 x
    simpa only [hm] using this
  · have h := h2 g hg
    refine ⟨?_, ⟨h.aliases.1, fun x => ?_⟩, ⟨h.names.1, fun x => ?_⟩⟩
    · simpa only [hm] using h.self
    · simpa only [hm] using h.aliases.2 x
    · simpa only [hm] using h.names.2 x

/-- The stream of the examples. -/
def wordedRust : List (Call Rust.Import) :=
  [.appendLang (Rust.build (Wording.str "std::fmt".toList).into (Wording.str "Write".toList).into []), .space,
   .appendLang (Rust.build (Wording.string "std::fmt".toList).into (Wording.rc "Debug".toList).into []), .space,
   .appendLang (Rust.build (Wording.box "std::fmt".toList).into (Wording.string "Write".toList).into []), .space,
   .appendLang (Rust.build (Wording.cow false "std::fmt".toList).into (Wording.str "Error".toList).into [.qualified]),
   .space, .appendLang (Rust.build (Wording.str "a".toList).into (Wording.str "B".toList).into
      [.withAlias (Wording.str "C".toList).into])]

example : toFileVec (Rust.lang .direct) ⟨.space 4, ['\n']⟩ (Rust.file .direct (history wordedRust)) =
    some ["use a::B as C;".toList, "use std::fmt::{self, Debug, Write};".toList, [],
      "Write Debug Write fmt::Error C".toList] := by decide +kernel

example : losesSpace (Rust.lang .direct).langItem (history wordedRust).items = false ∧
    ∀ i ∈ inserted wordedRust, i.Worded := by
  refine ⟨by decide, ?_⟩
  intro i hi
  simp [inserted, wordedRust, callItems, langOf] at hi
  rcases hi with rfl | rfl | rfl | rfl | rfl <;>
    refine ⟨_, _, _, ?_, rfl⟩ <;> simp [Rust.Step.Worded]

/-! ## Python -/

/-- C98, Python: there is one `from` statement for each module that names are taken from, and
it has each name once; each module import is there once; all sorted by text. -/
theorem C98_python (cfg : Config) (cs : List (Call Python.Import))
    (hb : losesSpace Python.lang.langItem (history cs).items = false)
    (hp : ∀ i ∈ inserted cs, PythonFile.Proper i) (hw : ∀ i ∈ inserted cs, i.Worded) :
    ∃ (fs : List (Str × List (Str × Option Str))) (is : List (Str × Option Str)),
      toFileVec Python.lang cfg (Python.file (history cs)) =
        (toVec Python.lang cfg (history cs).items).map (fileLines
          (fs.map (fun e => (PythonFile.Stmt.from_ e.1 e.2).text) ++
            is.map (fun e => (PythonFile.Stmt.import_ e.1 e.2).text))) ∧
      Lists (fs.map (·.1)) (fun m =>
        ∃ p n a, .object (.unqualified p) n a ∈ inserted cs ∧ p.text = m) ∧
      (∀ e ∈ fs, Lists e.2 fun x => ∃ p n a, .object (.unqualified p) n a ∈ inserted cs ∧ p.text = e.1 ∧
        (n.text, a.map ItemStr.text) = x) ∧
      Lists is fun x => ∃ p b, (p.text, b.map ItemStr.text) = x ∧
        ((∃ n a, .object (.qualified p b) n a ∈ inserted cs) ∨ .module p b ∈ inserted cs) := by
  obtain ⟨fs, is, h1, h2, h3, h4, h5, h6⟩ := C45_content cfg cs hb hp
  have hobj : ∀ {p n a}, Python.Import.object (.unqualified p) n a ∈ inserted cs →
      Boxed p ∧ Boxed n ∧ ∀ x ∈ a, Boxed x := by
    intro p n a h
    have := (hw _ h).boxed
    simp only [PythonFile.strs, List.mem_cons, Option.mem_toList] at this
    exact ⟨this p (.inl rfl), this n (.inr (.inl rfl)), fun x hx => this x (.inr (.inr hx))⟩
  have hkey : ∀ e ∈ fs, Boxed e.1 ∧ ∃ n a, Python.Import.object (.unqualified e.1) n a ∈ inserted cs := by
    intro e he
    obtain ⟨-, hne, hm⟩ := h4 e he
    obtain ⟨⟨n, a⟩, hx⟩ := List.exists_mem_of_ne_nil _ hne
    exact ⟨(hobj ((hm n a).1 hx)).1, n, a, (hm n a).1 hx⟩
  refine ⟨fs.map (fun e => (e.1.text, e.2.map (fun n => (n.1.text, n.2.map ItemStr.text)))),
    is.map (fun e => (e.1.text, e.2.map ItemStr.text)), ?_, ⟨?_, fun m => ?_⟩, ?_, ⟨?_, fun x => ?_⟩⟩
  · simpa only [List.map_map, Function.comp_def] using h1
  · rw [List.map_map]
    have := boxed_sorted h2 (by
      intro x hx
      obtain ⟨e, he, rfl⟩ := List.mem_map.1 hx
      exact (hkey e he).1)
    simpa only [List.map_map, Function.comp_def] using this
  · simp only [List.map_map, List.mem_map, Function.comp_apply]
    constructor
    · rintro ⟨e, he, rfl⟩
      obtain ⟨-, n, a, h⟩ := hkey e he
      exact ⟨_, n, a, h, rfl⟩
    · rintro ⟨p, n, a, h, rfl⟩
      obtain ⟨e, he, rfl⟩ := List.mem_map.1 (h5 p n a h)
      exact ⟨e, he, rfl⟩
  · intro e' he'
    obtain ⟨e, he, rfl⟩ := List.mem_map.1 he'
    obtain ⟨hs, -, hm⟩ := h4 e he
    refine ⟨boxed_sorted_option hs ?_, fun x => ?_⟩
    · rintro ⟨n, a⟩ hx
      exact (hobj ((hm n a).1 hx)).2
    · simp only [List.mem_map, Prod.exists, hm]
      constructor
      · rintro ⟨n, a, h, rfl⟩
        exact ⟨_, n, a, h, rfl, rfl⟩
      · rintro ⟨p, n, a, h, ht, rfl⟩
        obtain rfl := (hobj h).1.ext (hkey e he).1 ht
        exact ⟨n, a, h, rfl⟩
  · refine boxed_sorted_option h3 ?_
    rintro ⟨p, b⟩ hx
    rcases (h6 p b).1 hx with ⟨n, a, h⟩ | h
    · have := (hw _ h).boxed
      simp only [PythonFile.strs, List.mem_append, List.mem_cons, Option.mem_toList] at this
      exact ⟨this p (.inl (.inl rfl)), fun x hx => this x (.inr hx)⟩
    · have := (hw _ h).boxed
      simp only [PythonFile.strs, List.mem_cons, Option.mem_toList] at this
      exact ⟨this p (.inl rfl), fun x hx => this x (.inr hx)⟩
  · simp only [List.mem_map, Prod.exists, h6]
    constructor
    · rintro ⟨p, b, h, rfl⟩
      exact ⟨p, b, rfl, h⟩
    · rintro ⟨p, b, rfl, h⟩
      exact ⟨p, b, h, rfl⟩

/-- The stream of the examples. -/
def wordedPython : List (Call Python.Import) :=
  [.appendLang (Python.build (Wording.str "os".toList).into (Wording.str "path".toList).into []), .space,
   .appendLang (Python.build (Wording.string "os".toList).into (Wording.rc "name".toList).into []), .space,
   .appendLang (Python.build (Wording.string "os".toList).into (Wording.string "path".toList).into []), .space,
   .appendLang (Python.build (Wording.str "sys".toList).into (Wording.str "argv".toList).into [.qualified]), .space,
   .appendLang (Python.buildModule (Wording.string "sys".toList).into [])]

example : toFileVec Python.lang ⟨.space 4, ['\n']⟩ (Python.file (history wordedPython)) =
    some ["from os import name, path".toList, "import sys".toList, [],
      "path name path sys.argv sys".toList] := by decide +kernel

example : losesSpace Python.lang.langItem (history wordedPython).items = false ∧
    ∀ i ∈ inserted wordedPython, i.Worded := by
  refine ⟨by decide, ?_⟩
  intro i hi
  simp [inserted, wordedPython, callItems, langOf] at hi
  rcases hi with rfl | rfl | rfl | rfl | rfl
  · exact .inl ⟨_, _, [], by simp, rfl⟩
  · exact .inl ⟨_, _, [], by simp, rfl⟩
  · exact .inl ⟨_, _, [], by simp, rfl⟩
  · exact .inl ⟨_, _, [.qualified], by simp [Python.Step.Worded], rfl⟩
  · exact .inr ⟨_, [], rfl⟩

/-! ## JavaScript -/

/-- C98, JavaScript: each import of a whole module is there once; there is one declaration for
each other module, and it has each name once; all sorted by text. -/
theorem C98_js (rel : List Js.Component → Str) (cfg : Config) (cs : List (Call Js.Import))
    (hb : losesSpace Js.lang.langItem (history cs).items = false) (hw : ∀ i ∈ inserted cs, i.Worded) :
    ∃ (ws : List (Str × Str)) (ks : List JsFile.Clause),
      toFileVec Js.lang cfg (Js.file rel (history cs)) =
        (toVec Js.lang cfg (history cs).items).map (fileLines
          (ws.map (fun w => (JsFile.Decl.wildcard w.2 w.1).text) ++ ks.map (·.decl.text))) ∧
      Lists ws (fun w => ∃ i ∈ inserted cs, i.kind = .wildcard ∧ JsFile.specifier i.module = some w.1 ∧
        i.name.text = w.2) ∧
      Lists (ks.map (·.module)) (fun m => ∃ i ∈ inserted cs, i.kind ≠ .wildcard ∧
        JsFile.specifier i.module = some m) ∧
      ∀ k ∈ ks, k.For (inserted cs) := by
  obtain ⟨ws, ms, h1, h2, h3, h4, h5, h6⟩ := C41_header rel cfg cs hb
  have hbx : ∀ i ∈ inserted cs, i.Boxed := fun i hi => (hw i hi).boxed
  have hmk : ∀ m ∈ ms, ∃ s, m.module = .global (.box s) := by
    intro m hm
    obtain ⟨i, hi, -, he⟩ := (h5 m.module).1 (List.mem_map_of_mem (f := ModuleLine.module) hm)
    obtain ⟨s, hs⟩ := (hbx i hi).module
    exact ⟨s, he ▸ hs⟩
  have hwb : ∀ w ∈ ws, (∃ s, w.1 = .global (.box s)) ∧ Boxed w.2 := by
    rintro ⟨m, n⟩ hw'
    obtain ⟨i, hi, -, rfl, rfl⟩ := (h3 m n).1 hw'
    exact ⟨(hbx i hi).module, (hbx i hi).name⟩
  have hspec : ∀ {i : Js.Import}, i ∈ inserted cs → ∀ m : Js.Mod, (∃ s, m = .global (.box s)) →
      (JsFile.specifier i.module = some (JsFile.source rel m) ↔ i.module = m) := by
    rintro i hi m ⟨s, rfl⟩
    obtain ⟨t, ht⟩ := (hbx i hi).module
    rw [ht]
    simp [JsFile.specifier, JsFile.source, ItemStr.text]
  have hsome : ∀ {m : Js.Mod} {t : Str}, JsFile.specifier m = some t → JsFile.source rel m = t := by
    rintro (_ | _) t h
    · cases h
    · exact Option.some.inj h
  have hcmp : ∀ m m' : Js.Mod, (∃ s, m = .global (.box s)) → (∃ s, m' = .global (.box s)) →
      compare m m' = compare (JsFile.source rel m) (JsFile.source rel m') := by
    rintro _ _ ⟨s, rfl⟩ ⟨t, rfl⟩
    rfl
  refine ⟨ws.map (fun w => (JsFile.source rel w.1, w.2.text)),
    ms.map (fun m => ⟨JsFile.source rel m.module, m.default_.map ItemStr.text, m.plain.map ItemStr.text,
      m.aliased.map (fun p => (p.1.text, p.2.text))⟩), ?_, ⟨?_, fun w => ?_⟩, ⟨?_, fun t => ?_⟩, ?_⟩
  · simpa only [List.map_map, Function.comp_def, JsFile.Clause.decl, ModuleLine.decl] using h1
  · refine sorted_map h2 (fun a ha b hb' => ?_)
    rw [compare_pair, compare_pair, hcmp _ _ (hwb a ha).1 (hwb b hb').1,
      (hwb a ha).2.compare (hwb b hb').2]
  · simp only [List.mem_map, Prod.exists, h3]
    constructor
    · rintro ⟨m, n, ⟨i, hi, hk, rfl, rfl⟩, rfl⟩
      exact ⟨i, hi, hk, (hspec hi _ (hbx i hi).module).2 rfl, rfl⟩
    · rintro ⟨i, hi, hk, hs, hn⟩
      exact ⟨_, _, ⟨i, hi, hk, rfl, rfl⟩, Prod.ext (hsome hs) hn⟩
  · have := sorted_map (f := JsFile.source rel) h4 (by
      intro a ha b hb'
      obtain ⟨x, hx, rfl⟩ := List.mem_map.1 ha
      obtain ⟨y, hy, rfl⟩ := List.mem_map.1 hb'
      exact hcmp _ _ (hmk x hx) (hmk y hy))
    simpa only [List.map_map, Function.comp_def] using this
  · simp only [List.map_map, List.mem_map, Function.comp_apply]
    constructor
    · rintro ⟨m, hm, rfl⟩
      obtain ⟨i, hi, hk, he⟩ := (h5 m.module).1 (List.mem_map_of_mem (f := ModuleLine.module) hm)
      exact ⟨i, hi, hk, (hspec hi _ (hmk m hm)).2 he⟩
    · rintro ⟨i, hi, hk, hs⟩
      obtain ⟨m, hm, he⟩ := List.mem_map.1 ((h5 i.module).2 ⟨i, hi, hk, rfl⟩)
      exact ⟨m, hm, by rw [he]; exact hsome hs⟩
  · intro k hk
    obtain ⟨m, hm, rfl⟩ := List.mem_map.1 hk
    obtain ⟨hd, hp, ha, hpm, ham⟩ := h6 m hm
    refine ⟨?_, ⟨boxed_sorted hp ?_, fun x => ?_⟩, ⟨boxed_sorted_pair ha ?_, fun x => ?_⟩⟩
    · dsimp only
      rw [hd, Option.map_map]
      refine congrArg (Option.map _) (find?_congr fun i hi => ?_)
      simp only [hspec hi _ (hmk m hm)]
    · intro x hx
      obtain ⟨i, hi, -, -, rfl, -⟩ := (hpm x).1 hx
      exact (hbx i hi).name
    · simp only [List.mem_map, hpm]
      constructor
      · rintro ⟨n, ⟨i, hi, hk, he, rfl, ha⟩, rfl⟩
        exact ⟨i, hi, hk, (hspec hi _ (hmk m hm)).2 he, ha, rfl⟩
      · rintro ⟨i, hi, hk, hs, ha, rfl⟩
        exact ⟨_, ⟨i, hi, hk, (hspec hi _ (hmk m hm)).1 hs, rfl, ha⟩, rfl⟩
    · rintro ⟨n, a⟩ hx
      obtain ⟨i, hi, -, -, rfl, ha⟩ := (ham n a).1 hx
      exact ⟨(hbx i hi).name, (hbx i hi).alias a ha⟩
    · simp only [List.mem_map, Prod.exists, ham]
      constructor
      · rintro ⟨n, a, ⟨i, hi, hk, he, rfl, ha⟩, rfl⟩
        exact ⟨i, hi, hk, (hspec hi _ (hmk m hm)).2 he, rfl, a, ha, rfl⟩
      · rintro ⟨i, hi, hk, hs, hn, a, ha, hx⟩
        exact ⟨_, a, ⟨i, hi, hk, (hspec hi _ (hmk m hm)).1 hs, rfl, ha⟩, Prod.ext hn hx⟩

/-- The stream of the examples. -/
def wordedJs : List (Call Js.Import) :=
  [.appendLang (Js.build (.fromStr "react".toList) (Wording.str "useState".toList).into []), .space,
   .appendLang (Js.build (.fromString "react".toList) (Wording.rc "React".toList).into [.intoDefault]), .space,
   .appendLang (Js.build (.fromString "react".toList) (Wording.string "useState".toList).into []), .space,
   .appendLang (Js.build (.fromStr "fs".toList) (Wording.string "fs".toList).into [.intoWildcard])]

example : toFileVec Js.lang ⟨.space 2, ['\n']⟩ (Js.file (fun _ => []) (history wordedJs)) =
    some ["import * as fs from \"fs\";".toList, "import React, {useState} from \"react\";".toList, [],
      "useState React useState fs".toList] := by decide +kernel

example : losesSpace Js.lang.langItem (history wordedJs).items = false ∧
    ∀ i ∈ inserted wordedJs, i.Worded := by
  refine ⟨by decide, ?_⟩
  intro i hi
  simp [inserted, wordedJs, callItems, langOf] at hi
  rcases hi with rfl | rfl | rfl | rfl
  · exact ⟨_, false, _, [], by simp, rfl⟩
  · exact ⟨_, true, _, [.intoDefault], by simp [Js.Step.Worded], rfl⟩
  · exact ⟨_, true, _, [], by simp, rfl⟩
  · exact ⟨_, false, _, [.intoWildcard], by simp [Js.Step.Worded], rfl⟩

/-! ## Java -/

/-- C98, Java: of the foreign classes with the same name the one whose package comes first is
imported; sorted by text. -/
theorem C98_java (package : Option ItemStr) (cfg : Config) (cs : List (Call Java.Import))
    (hb : losesSpace (Java.lang package (history cs)).langItem (history cs).items = false)
    (hw : ∀ i ∈ inserted cs, i.Worded) :
    ∃ ims : List (Str × Str),
      toFileVec (Java.lang package (history cs)) cfg (Java.file package (history cs)) =
        (toVec (Java.lang package (history cs)) cfg (history cs).items).map (fileLines (paragraphs
          [(package.map (fun p => JavaFile.packageLine p.text)).toList,
           ims.map (fun e => JavaFile.importLine e.1 e.2)])) ∧
      Lists ims (fun e => (∃ i ∈ inserted cs, JavaFile.target i = e) ∧
        JavaFile.Foreign (package.map ItemStr.text) e ∧
        ∀ j ∈ inserted cs, JavaFile.Foreign (package.map ItemStr.text) (JavaFile.target j) → j.name.text = e.2 →
          compare e.1 j.package.text ≠ .gt) := by
  obtain ⟨ims, h1, h2, h3⟩ := C42_chosen package cfg cs hb
  have hcmp : ∀ i ∈ inserted cs, ∀ j ∈ inserted cs, j.name.text = i.name.text →
      compare (i.package, i.name) (j.package, j.name) = compare i.package.text j.package.text := by
    intro i hi j hj h
    rw [(hw j hj).boxed.2.ext (hw i hi).boxed.2 h, compare_pair]
    rw [(hw i hi).boxed.1.compare (hw j hj).boxed.1, (hw i hi).boxed.2.compare (hw i hi).boxed.2]
    rw [Std.ReflCmp.compare_self (cmp := compare)]
    cases compare i.package.text j.package.text <;> rfl
  refine ⟨ims.map (fun e => (e.1.text, e.2.text)), ?_, boxed_sorted_pair h2 ?_, fun e => ?_⟩
  · simpa only [List.map_map, Function.comp_def] using h1
  · intro e he
    obtain ⟨i, hi, rfl⟩ := (h3 e).1 he
    exact (hw i hi.1).boxed
  · simp only [List.mem_map, h3]
    constructor
    · rintro ⟨_, ⟨i, ⟨hi, hf, hx⟩, rfl⟩, rfl⟩
      refine ⟨⟨i, hi, rfl⟩, hf, fun j hj hfj hn => ?_⟩
      have := hx j hj hfj hn
      rwa [hcmp i hi j hj hn] at this
    · rintro ⟨⟨i, hi, rfl⟩, hf, hx⟩
      refine ⟨_, ⟨i, ⟨hi, hf, fun j hj hfj hn => ?_⟩, rfl⟩, rfl⟩
      rw [hcmp i hi j hj hn]
      exact hx j hj hfj hn

/-- The stream of the examples. -/
def wordedJava : List (Call Java.Import) :=
  [.appendLang (Java.import_ (Wording.str "java.util".toList).into (Wording.str "List".toList).into), .space,
   .appendLang (Java.import_ (Wording.string "java.util".toList).into (Wording.rc "List".toList).into), .space,
   .appendLang (Java.import_ (Wording.string "java.awt".toList).into (Wording.str "List".toList).into)]

example : toFileVec (Java.lang none (history wordedJava)) ⟨.space 4, ['\n']⟩ (Java.file none (history wordedJava)) =
    some ["import java.awt.List;".toList, [], "java.util.List java.util.List List".toList] := by decide +kernel

example : losesSpace (Java.lang none (history wordedJava)).langItem (history wordedJava).items = false ∧
    ∀ i ∈ inserted wordedJava, i.Worded := by
  refine ⟨by decide, ?_⟩
  intro i hi
  simp [inserted, wordedJava, callItems, langOf] at hi
  rcases hi with rfl | rfl | rfl <;> exact ⟨_, _, rfl⟩

/-! ## Nix -/

/-- C98, Nix: each argument, scope and inherited name is there once, sorted by text; the
variables are sorted by name. -/
theorem C98_nix (cfg : Config) (isScoped : Bool) (cs : List (Call Nix.Import))
    (hb : losesSpace Nix.lang.langItem (history cs).items = false) (hv : NixFile.Exprs cfg (inserted cs))
    (hw : ∀ i, Seen cs i → i.Worded) :
    ∃ (as ws : List Str) (ins : List (Str × Str)) (vs : List (Str × Tokens Nix.Import)),
      toFileVec Nix.lang cfg (Nix.file isScoped (history cs)) =
        (toVec Nix.lang cfg (history cs).items).map (fileLines (NixFile.Decls.lines cfg
          ⟨if isScoped then none else some as, ws,
            ins.map (fun e => .inherit e.1 e.2) ++
              vs.map (fun e => .value e.1 ((toVec Nix.lang cfg e.2.items).getD []))⟩)) ∧
      Lists as (fun a => ∃ i, Seen cs i ∧ NixFile.NeedsArg a i) ∧
      Lists ws (fun x => ∃ p n, Nix.Import.with p n ∈ inserted cs ∧ p.text = x) ∧
      Lists ins (fun x => ∃ p n, Seen cs (.inherit p n) ∧ (p.text, n.text) = x) ∧
      Lists vs (fun x => ∃ n v, Nix.Import.variable n v ∈ inserted cs ∧ (n.text, v) = x) := by
  obtain ⟨as, ws, ins, vs, h1, ha, ham, hws, hwm, hi, him, hvs, hvm⟩ := C48_header cfg isScoped cs hb hv
  refine ⟨as, ws.map ItemStr.text, ins.map (fun e => (e.1.text, e.2.text)), vs.map (fun e => (e.1.text, e.2)), ?_,
    ⟨ha, ham⟩, ⟨boxed_sorted hws ?_, fun x => ?_⟩, ⟨boxed_sorted_pair hi ?_, fun x => ?_⟩,
    ⟨sorted_map hvs ?_, fun x => ?_⟩⟩
  · simpa only [List.map_map, Function.comp_def] using h1
  · intro p hp
    obtain ⟨n, h⟩ := (hwm p).1 hp
    exact (hw _ (.inl h)).with
  · simp only [List.mem_map, hwm]
    constructor
    · rintro ⟨p, ⟨n, h⟩, rfl⟩; exact ⟨p, n, h, rfl⟩
    · rintro ⟨p, n, h, rfl⟩; exact ⟨p, ⟨n, h⟩, rfl⟩
  · rintro ⟨p, n⟩ h
    exact (hw _ ((him p n).1 h)).inherit
  · simp only [List.mem_map, Prod.exists, him]
  · rintro ⟨n, v⟩ h ⟨n', v'⟩ h'
    rw [compare_pair, compare_pair]
    rw [(hw _ (.inl ((hvm n v).1 h))).variable.compare (hw _ (.inl ((hvm n' v').1 h'))).variable]
  · simp only [List.mem_map, Prod.exists, hvm]

/-- The stream of the examples. -/
def wordedNix : List (Call Nix.Import) :=
  [.appendLang (Nix.inherit_ (Wording.str "inputs".toList).into (Wording.str "pkgs".toList).into), .space,
   .appendLang (Nix.with_ (Wording.string "lib".toList).into (Wording.str "map".toList).into), .space,
   .appendLang (Nix.inherit_ (Wording.string "inputs".toList).into (Wording.rc "pkgs".toList).into), .space,
   .appendLang (Nix.with_ (Wording.rc "lib".toList).into (Wording.str "id".toList).into)]

example : toFileVec Nix.lang ⟨.space 4, ['\n']⟩ (Nix.file false (history wordedNix)) =
    some ["{".toList, "    inputs,".toList, "    lib,".toList, "    ...".toList, "}:".toList,
      [], "with lib;".toList, [], "let".toList, "    inherit (inputs) pkgs;".toList,
      "in".toList, [], "pkgs map pkgs id".toList] := by decide +kernel

example : losesSpace Nix.lang.langItem (history wordedNix).items = false ∧
    NixFile.Exprs ⟨.space 4, ['\n']⟩ (inserted wordedNix) ∧ ∀ i, Seen wordedNix i → i.Worded := by
  have e : inserted wordedNix =
      [Nix.inherit_ (Wording.str "inputs".toList).into (Wording.str "pkgs".toList).into,
       Nix.with_ (Wording.string "lib".toList).into (Wording.str "map".toList).into,
       Nix.inherit_ (Wording.string "inputs".toList).into (Wording.rc "pkgs".toList).into,
       Nix.with_ (Wording.rc "lib".toList).into (Wording.str "id".toList).into] := rfl
  refine ⟨by decide +kernel, fun n v h => ?_, fun i h => ?_⟩
  · rw [e] at h
    simp [Nix.inherit_, Nix.with_] at h
  · rcases h with h | ⟨⟨n, v, h, -⟩, -⟩
    · rw [e] at h
      simp only [List.mem_cons, List.not_mem_nil, or_false] at h
      rcases h with rfl | rfl | rfl | rfl
      · exact .inr (.inl ⟨_, _, rfl⟩)
      · exact .inr (.inr (.inr ⟨_, _, rfl⟩))
      · exact .inr (.inl ⟨_, _, rfl⟩)
      · exact .inr (.inr (.inr ⟨_, _, rfl⟩))
    · rw [e] at h
      simp [Nix.inherit_, Nix.with_] at h

end Genco.Props
