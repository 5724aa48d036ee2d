import Verif.Proofs.Only
import Verif.Spec.References
import Verif.Props.Simple

/-!
# What references mean in Go and Dart files (C97)
-/

set_option autoImplicit false

namespace Genco.Props

open Genco Spec

/-- C97 for Go. Exactly which references mean what their import asks for: those to packages
that declare the last segment of their path as their name, if no other stored path leads to a
package that declares that name. -/
theorem C97_go (package : Option ItemStr) (cfg : Config) (declared : Str → Str) (cs : List (Call Go.Import))
    (hb : losesSpace Go.lang.langItem (history cs).items = false) :
    ∃ ps : List Str,
      toFileVec Go.lang cfg (Go.file package (history cs)) =
        (toVec Go.lang cfg (history cs).items).map (fileLines (paragraphs
          [(package.map (fun p => GoFile.packageLine p.text)).toList, ps.map GoFile.importLine])) ∧
      ∀ i ∈ inserted cs,
        (GoFile.Denotes ps declared (Go.lang.langItem i).flatten i.module.text i.name.text ↔
          LastPart '/' i.module.text (declared i.module.text) ∧
            ∀ j ∈ inserted cs, declared j.module.text = declared i.module.text → j.module = i.module) := by
  obtain ⟨ms, h1, h2, h3⟩ := C44_go package cfg cs hb
  refine ⟨ms.map ItemStr.text, by simpa [Function.comp_def] using h1, fun i hi => ?_⟩
  obtain ⟨seg, hseg, hr⟩ := C44_reference i
  rw [GoFile.Denotes, only_one (Increasing.nodup h2) ItemStr.text declared, hr]
  constructor
  · rintro ⟨e, k, hk, hki, hu⟩
    have e : seg = declared i.module.text := List.append_cancel_right e
    refine ⟨e ▸ hseg, fun j hj hd => ?_⟩
    rw [hu j.module ((h3 _).2 ⟨j, hj, rfl⟩) hd, hu i.module ((h3 _).2 ⟨i, hi, rfl⟩) rfl]
  · rintro ⟨hl, hu⟩
    refine ⟨by rw [lastPart_unique hseg hl], i.module, (h3 _).2 ⟨i, hi, rfl⟩, rfl, fun k hk hd => ?_⟩
    obtain ⟨j, hj, rfl⟩ := (h3 k).1 hk
    exact hu j hj hd

/-- The name the package at the path declares, for the examples. -/
def goName (p : Str) : Str := if p = "gopkg.in/yaml.v2".toList then "yaml".toList else lastSeg1 '/' p

/-- Two packages with different names. -/
example :
    let i : Go.Import := ⟨.static "net/http".toList, .static "Get".toList⟩
    let j : Go.Import := ⟨.static "os".toList, .static "Exit".toList⟩
    LastPart '/' i.module.text (goName i.module.text) ∧
      ∀ k ∈ inserted [Call.appendLang i, .space, .appendLang j],
        goName k.module.text = goName i.module.text → k.module = i.module := by
  refine ⟨⟨by decide, .inr ⟨"net".toList, by decide⟩⟩, ?_⟩
  decide

/-- C97. References are wrong where a package has another name than its path, and where two
packages have the same name. -/
theorem C97_go_witness :
    let y : Go.Import := ⟨.static "gopkg.in/yaml.v2".toList, .static "Marshal".toList⟩
    let r : Go.Import := ⟨.static "math/rand".toList, .static "Int".toList⟩
    let s : Go.Import := ⟨.static "crypto/rand".toList, .static "Int".toList⟩
    (toFileVec Go.lang ⟨.tab, ['\n']⟩ (Go.file none (history [.appendLang y])) =
        some [GoFile.importLine "gopkg.in/yaml.v2".toList, [], "yaml.v2.Marshal".toList] ∧
      ¬ GoFile.Denotes ["gopkg.in/yaml.v2".toList] goName "yaml.v2.Marshal".toList
        y.module.text y.name.text) ∧
    toFileVec Go.lang ⟨.tab, ['\n']⟩ (Go.file none (history [.appendLang r, .space, .appendLang s])) =
        some [GoFile.importLine "crypto/rand".toList, GoFile.importLine "math/rand".toList, [],
          "rand.Int rand.Int".toList] ∧
      ¬ GoFile.Denotes ["crypto/rand".toList, "math/rand".toList] goName "rand.Int".toList
        r.module.text r.name.text := by
  refine ⟨⟨by decide +kernel, ?_⟩, by decide +kernel, ?_⟩
  · rintro ⟨h, -⟩
    revert h; decide
  · rintro ⟨-, before, after, h, hu⟩
    match before, h with
    | [], h => exact absurd (List.cons.inj h).1 (by decide)
    | [x], h =>
      obtain ⟨rfl, -⟩ := List.cons.inj h
      exact hu "crypto/rand".toList (by simp) (by decide)
    | _ :: _ :: before, h => simp at h

/-- What the import asks for can be seen, is there, and is not mistaken for something else. -/
def DartOwn (exports : Str → Str → Prop) (l : List Dart.Import) (i : Dart.Import) : Prop :=
  exports i.path.text i.name.text ∧ (i.path.text = DartFile.coreLibrary → i.alias = none) ∧
  (∀ j ∈ l, j.path.text ≠ DartFile.coreLibrary → j.alias.map ItemStr.text = i.alias.map ItemStr.text →
    exports j.path.text i.name.text →
    j.path.text = i.path.text ∨ DartFile.System j.path.text ∧ ¬ DartFile.System i.path.text) ∧
  (i.alias = none →
    (exports DartFile.coreLibrary i.name.text →
      DartFile.coreLibrary = i.path.text ∨ ¬ DartFile.System i.path.text) ∧
    ∀ j ∈ l, j.path.text ≠ DartFile.coreLibrary → j.alias.map ItemStr.text ≠ some i.name.text)

theorem split_dot {a b n m : Str} (ha : '.' ∉ a) (hb : '.' ∉ b) (h : a ++ '.' :: n = b ++ '.' :: m) :
    a = b ∧ n = m := by
  induction a generalizing b with
  | nil =>
    cases b with
    | nil => exact ⟨rfl, (List.cons.inj h).2⟩
    | cons c b => exact absurd (List.cons.inj h).1 (by simp at hb; exact hb.1)
  | cons c a ih =>
    cases b with
    | nil => exact absurd (List.cons.inj h).1.symm (by simp at ha; exact ha.1)
    | cons d b =>
      simp only [List.mem_cons, not_or] at ha hb
      obtain ⟨h1, h2⟩ := List.cons.inj h
      obtain ⟨h3, h4⟩ := ih ha.2 hb.2 h2
      exact ⟨by rw [h1, h3], h4⟩

/-- C97 for Dart. Exactly which references mean what their import asks for, if names and aliases
contain no dots. -/
theorem C97_dart (cfg : Config) (exports : Str → Str → Prop) (cs : List (Call Dart.Import))
    (hb : losesSpace Dart.lang.langItem (history cs).items = false)
    (hn : ∀ i ∈ inserted cs, ∀ x ∈ i.name :: i.alias.toList, '.' ∉ x.text) :
    ∃ ms : List (Str × Option Str),
      toFileVec Dart.lang cfg (Dart.file (history cs)) =
        (toVec Dart.lang cfg (history cs).items).map
          (fileLines (ms.map (fun m => DartFile.importLine m.1 m.2))) ∧
      ∀ i ∈ inserted cs,
        (DartFile.Denotes ms exports (Dart.lang.langItem i).flatten i.path.text i.name.text ↔
          DartOwn exports (inserted cs) i) := by
  obtain ⟨ms, h1, h2, h3⟩ := C46_dart cfg cs hb
  refine ⟨ms.map (fun m => (m.1.text, m.2.map ItemStr.text)), by simpa [Function.comp_def] using h1,
    fun i hi => ?_⟩
  have hmem : ∀ q a, (q, a) ∈ ms.map (fun m => (m.1.text, m.2.map ItemStr.text)) ↔
      ∃ j ∈ inserted cs, j.path.text ≠ DartFile.coreLibrary ∧ j.path.text = q ∧
        j.alias.map ItemStr.text = a := by
    intro q a
    simp only [List.mem_map, Prod.mk.injEq]
    constructor
    · rintro ⟨m, hm, e1, e2⟩
      obtain ⟨j, hj, hc, rfl⟩ := (h3 m).1 hm
      exact ⟨j, hj, hc, e1, e2⟩
    · rintro ⟨j, hj, hc, e1, e2⟩
      exact ⟨_, (h3 _).2 ⟨j, hj, hc, rfl⟩, e1, e2⟩
  generalize ms.map (fun m => (m.1.text, m.2.map ItemStr.text)) = im at hmem
  have hsys : DartFile.System DartFile.coreLibrary := ⟨"core".toList, by decide⟩
  have hni : '.' ∉ i.name.text := hn i hi _ (by simp)
  -- The libraries that can be seen in the way of the import.
  have hsel : DartFile.Selects exports (DartFile.Visible im (i.alias.map ItemStr.text)) i.path.text i.name.text ↔
      exports i.path.text i.name.text ∧ (i.path.text = DartFile.coreLibrary → i.alias = none) ∧
      (∀ j ∈ inserted cs, j.path.text ≠ DartFile.coreLibrary →
        j.alias.map ItemStr.text = i.alias.map ItemStr.text → exports j.path.text i.name.text →
        j.path.text = i.path.text ∨ DartFile.System j.path.text ∧ ¬ DartFile.System i.path.text) ∧
      (i.alias = none → exports DartFile.coreLibrary i.name.text →
        DartFile.coreLibrary = i.path.text ∨ ¬ DartFile.System i.path.text) := by
    constructor
    · rintro ⟨hv, he, hu⟩
      refine ⟨he, ?_, ?_, ?_⟩
      · intro hc
        rcases hv with hv | ⟨hv, -⟩
        · obtain ⟨j, -, hj, e, -⟩ := (hmem _ _).1 hv
          exact absurd (e.trans hc) hj
        · simpa using hv
      · intro j hj hc ha hx
        exact hu _ (.inl ((hmem _ _).2 ⟨j, hj, hc, rfl, ha⟩)) hx
      · intro ha hx
        rcases hu _ (.inr ⟨by simp [ha], rfl⟩) hx with h | h
        · exact .inl h
        · exact .inr h.2
    · rintro ⟨he, hc, hu, hcore⟩
      refine ⟨?_, he, ?_⟩
      · by_cases h : i.path.text = DartFile.coreLibrary
        · exact .inr ⟨by simp [hc h], h⟩
        · exact .inl ((hmem _ _).2 ⟨i, hi, h, rfl, rfl⟩)
      · rintro q (hq | ⟨ha, rfl⟩) hx
        · obtain ⟨j, hj, hjc, rfl, hja⟩ := (hmem _ _).1 hq
          exact hu j hj hjc hja hx
        · rcases hcore (by simpa using ha) hx with h | h
          · exact .inl h
          · exact .inr ⟨hsys, h⟩
  have hpre : (∀ q, (q, some i.name.text) ∉ im) ↔
      ∀ j ∈ inserted cs, j.path.text ≠ DartFile.coreLibrary → j.alias.map ItemStr.text ≠ some i.name.text := by
    constructor
    · intro h j hj hc ha
      exact h _ ((hmem _ _).2 ⟨j, hj, hc, rfl, ha⟩)
    · intro h q hq
      obtain ⟨j, hj, hc, -, ha⟩ := (hmem _ _).1 hq
      exact h j hj hc ha
  cases ha : i.alias with
  | none =>
    have hr : (Dart.lang.langItem i).flatten = i.name.text := by
      simp [Dart.lang, dartLang, Dart.Import.format, ha]
    rw [hr]
    simp only [ha, Option.map_none, forall_const, true_and] at hsel
    constructor
    · intro h
      generalize hrr : i.name.text = ref at h
      have key : ∀ ref p n, DartFile.Denotes im exports ref p n → ref = i.name.text → n = i.name.text →
          (∀ q, (q, some i.name.text) ∉ im) ∧
          DartFile.Selects exports (DartFile.Visible im none) p i.name.text := by
        intro ref p n h hr hn'
        cases h with
        | plain _ _ _ hp h => subst hr; exact ⟨hp, h⟩
        | prefixed a _ _ _ _ h =>
          exfalso
          rw [← hr] at hni
          simp at hni
      obtain ⟨k1, k2⟩ := key _ _ _ h hrr.symm hrr.symm
      obtain ⟨e1, e3, e4, e5⟩ := hsel.1 k2
      exact ⟨e1, fun _ => ha, by simpa [ha] using e4, fun _ => ⟨e5, hpre.1 k1⟩⟩
    · rintro ⟨e1, -, e3, e4⟩
      refine .plain _ _ hni (hpre.2 (e4 ha).2) (hsel.2 ⟨e1, ?_, by simpa [ha] using e3, (e4 ha).1⟩)
      intro _; trivial
  | some a =>
    have hna : '.' ∉ a.text := hn i hi a (by simp [ha])
    have hr : (Dart.lang.langItem i).flatten = a.text ++ '.' :: i.name.text := by
      simp [Dart.lang, dartLang, Dart.Import.format, ha]
    rw [hr]
    simp only [ha, Option.map_some, reduceCtorEq, false_implies, and_true] at hsel
    constructor
    · intro h
      have key : ∀ ref p n, DartFile.Denotes im exports ref p n → ref = a.text ++ '.' :: i.name.text →
          n = i.name.text →
          DartFile.Selects exports (DartFile.Visible im (some a.text)) p i.name.text := by
        intro ref p n h hr hn'
        cases h with
        | plain _ _ hd _ _ =>
          exfalso
          rw [hr] at hd
          simp at hd
        | prefixed b _ _ hb _ h =>
          obtain ⟨rfl, rfl⟩ := split_dot hb hna hr
          exact h
      obtain ⟨e1, e3, e4⟩ := hsel.1 (key _ _ _ h rfl rfl)
      refine ⟨e1, ?_, by simpa [ha] using e4, by simp [ha]⟩
      intro hc
      exact absurd (e3 hc) (by simp)
    · rintro ⟨e1, e2, e3, -⟩
      refine .prefixed _ _ _ hna hni (hsel.2 ⟨e1, ?_, by simpa [ha] using e3⟩)
      intro hc
      have := e2 hc
      rw [ha] at this
      cases this

/-- Every library of the examples has a `Random`. -/
def dartNames (_ n : Str) : Prop := n = "Random".toList

/-- Kept apart by a prefix. -/
example :
    let i : Dart.Import := ⟨.static "dart:math".toList, .static "Random".toList, some (.static "m".toList)⟩
    let j : Dart.Import := ⟨.static "package:b".toList, .static "Random".toList, none⟩
    (∀ k ∈ inserted [Call.appendLang i, .space, .appendLang j], DartOwn dartNames
      (inserted [Call.appendLang i, .space, .appendLang j]) k) := by
  have ns : ¬ DartFile.System "package:b".toList := by
    rintro ⟨r, h⟩
    simp at h
  intro i j k hk
  have e : inserted [Call.appendLang i, .space, .appendLang j] = [i, j] := rfl
  rw [e] at hk ⊢
  simp only [List.mem_cons, List.not_mem_nil, or_false] at hk
  rcases hk with rfl | rfl
  · refine ⟨rfl, fun h => absurd h (by decide), ?_, fun h => absurd h (by simp)⟩
    intro k hk _ ha _
    simp only [List.mem_cons, List.not_mem_nil, or_false] at hk
    rcases hk with rfl | rfl
    · exact .inl rfl
    · cases ha
  · refine ⟨rfl, fun h => absurd h (by decide), ?_, fun _ => ⟨fun _ => .inr ns, ?_⟩⟩
    · intro k hk _ ha _
      simp only [List.mem_cons, List.not_mem_nil, or_false] at hk
      rcases hk with rfl | rfl
      · cases ha
      · exact .inl rfl
    · intro k hk _
      simp only [List.mem_cons, List.not_mem_nil, or_false] at hk
      rcases hk with rfl | rfl <;> decide

/-- C97. Without prefixes, a name of a library of the system gives way to the same name of another
library, and the code does nothing about it. -/
theorem C97_dart_witness :
    let i : Dart.Import := ⟨.static "dart:math".toList, .static "Random".toList, none⟩
    let j : Dart.Import := ⟨.static "package:b".toList, .static "Random".toList, none⟩
    let ms : List (Str × Option Str) := [("dart:math".toList, none), ("package:b".toList, none)]
    toFileVec Dart.lang ⟨.space 2, ['\n']⟩ (Dart.file (history [.appendLang i, .space, .appendLang j])) =
      some (fileLines (ms.map (fun m => DartFile.importLine m.1 m.2)) ["Random Random".toList]) ∧
    DartFile.Denotes ms dartNames "Random".toList j.path.text j.name.text ∧
    ¬ DartFile.Denotes ms dartNames "Random".toList i.path.text i.name.text := by
  have ns : ¬ DartFile.System "package:b".toList := by
    rintro ⟨r, h⟩
    simp at h
  refine ⟨by decide +kernel, ?_, ?_⟩
  · refine .plain _ _ (by decide) (by simp) ⟨.inl (by simp [ItemStr.text]), rfl, ?_⟩
    rintro q (hq | ⟨-, rfl⟩) _
    · simp only [List.mem_cons, Prod.mk.injEq, and_true, List.not_mem_nil, or_false] at hq
      rcases hq with rfl | rfl
      · exact .inr ⟨⟨"math".toList, by decide⟩, ns⟩
      · exact .inl rfl
    · exact .inr ⟨⟨"core".toList, by decide⟩, ns⟩
  · have key : ∀ ref p n, DartFile.Denotes [("dart:math".toList, none), ("package:b".toList, none)]
        dartNames ref p n → p ≠ "dart:math".toList := by
      intro ref p n h hp
      cases h with
      | plain _ _ _ _ h =>
        rcases h.2.2 "package:b".toList (.inl (by simp)) h.2.1 with h | h
        · rw [hp] at h; exact absurd h (by decide)
        · exact ns h.1
      | prefixed a _ _ _ _ h =>
        rcases h.1 with h | ⟨h, -⟩
        · simp at h
        · cases h
    exact fun h => key _ _ _ h rfl

end Genco.Props
