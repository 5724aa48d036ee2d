import Verif.Spec.PlainNames
import Verif.Props.Simple

/-!
# What names mean in Swift and C files (C100)
-/

set_option autoImplicit false

namespace Genco.Props

open Genco Spec

/-- C100 for Swift. Exactly which references mean what their import asks for: the module has the
name, and no other module imported in the file has it, except the module of the standard library. -/
theorem C100_swift (cfg : Config) (exports : Str → Str → Prop) (cs : List (Call Swift.Import))
    (hb : losesSpace Swift.lang.langItem (history cs).items = false) :
    ∃ ps : List Str,
      toFileVec Swift.lang cfg (Swift.file (history cs)) =
        (toVec Swift.lang cfg (history cs).items).map (fileLines (ps.map SwiftFile.importLine)) ∧
      ∀ i ∈ inserted cs,
        (SwiftFile.Denotes ps exports (Swift.lang.langItem i).flatten i.module.text i.name.text ↔
          exports i.module.text i.name.text ∧
          (∀ j ∈ inserted cs, exports j.module.text i.name.text →
            j.module.text = i.module.text ∨ j.module.text = SwiftFile.standard) ∧
          (i.module.text = SwiftFile.standard →
            ∀ j ∈ inserted cs, exports j.module.text i.name.text → j.module.text = SwiftFile.standard)) := by
  obtain ⟨ms, h1, h2, h3⟩ := C47_swift cfg cs hb
  have hm : ∀ q, q ∈ ms.map ItemStr.text ↔ ∃ j ∈ inserted cs, j.module.text = q := by
    intro q
    simp only [List.mem_map, h3]
    exact ⟨fun ⟨_, ⟨j, hj, e⟩, e'⟩ => ⟨j, hj, by rw [e, e']⟩, fun ⟨j, hj, e⟩ => ⟨_, ⟨j, hj, rfl⟩, e⟩⟩
  refine ⟨ms.map ItemStr.text, by simpa [Function.comp_def] using h1, fun i hi => ?_⟩
  have hr : (Swift.lang.langItem i).flatten = i.name.text := by simp [Swift.lang, swiftLang, baseLang, Swift.Import.format]
  unfold SwiftFile.Denotes
  simp only [hr, hm, true_and]
  constructor
  · rintro ⟨-, he, hu⟩
    refine ⟨he, fun j hj hx => ?_, fun hs j hj hx => ?_⟩
    · rcases hu _ (.inl ⟨j, hj, rfl⟩) hx with h | h
      · exact .inl h
      · exact .inr h.1
    · rcases hu _ (.inl ⟨j, hj, rfl⟩) hx with h | h
      · rw [h, hs]
      · exact h.1
  · rintro ⟨he, hu, hs⟩
    refine ⟨.inl ⟨i, hi, rfl⟩, he, ?_⟩
    rintro q hq hx
    by_cases h : i.module.text = SwiftFile.standard
    · rcases hq with ⟨j, hj, rfl⟩ | rfl
      · exact .inl (by rw [hs h j hj hx, h])
      · exact .inl h.symm
    · rcases hq with ⟨j, hj, rfl⟩ | rfl
      · rcases hu j hj hx with h' | h'
        · exact .inl h'
        · exact .inr ⟨h', h⟩
      · exact .inr ⟨rfl, h⟩

/-- C100 for C. Exactly which references mean what their import asks for: the header declares the
name, and no other header included in the file declares it. -/
theorem C100_c (cfg : Config) (exports : Str × Bool → Str → Prop) (cs : List (Call C.Import))
    (hb : losesSpace C.lang.langItem (history cs).items = false) :
    ∃ ps : List (Str × Bool),
      toFileVec C.lang cfg (C.file (history cs)) =
        (toVec C.lang cfg (history cs).items).map (fileLines (ps.map (fun m => CFile.includeLine m.1 m.2))) ∧
      ∀ i ∈ inserted cs,
        (CFile.Denotes ps exports (C.lang.langItem i).flatten (i.path.text, i.system) i.item.text ↔
          exports (i.path.text, i.system) i.item.text ∧
          ∀ j ∈ inserted cs, exports (j.path.text, j.system) i.item.text →
            j.path.text = i.path.text ∧ j.system = i.system) := by
  obtain ⟨ms, h1, h2, h3⟩ := C47_c cfg cs hb
  have hm : ∀ q, q ∈ ms.map (fun m => (m.1.text, m.2)) ↔ ∃ j ∈ inserted cs, (j.path.text, j.system) = q := by
    intro q
    simp only [List.mem_map, h3]
    exact ⟨fun ⟨_, ⟨j, hj, e⟩, e'⟩ => ⟨j, hj, by rw [← e', ← e]⟩, fun ⟨j, hj, e⟩ => ⟨_, ⟨j, hj, rfl⟩, e⟩⟩
  refine ⟨ms.map (fun m => (m.1.text, m.2)), by simpa [Function.comp_def] using h1, fun i hi => ?_⟩
  have hr : (C.lang.langItem i).flatten = i.item.text := by simp [C.lang, cLang, baseLang, C.Import.format]
  unfold CFile.Denotes
  simp only [hr, hm, true_and]
  constructor
  · rintro ⟨-, he, hu⟩
    exact ⟨he, fun j hj hx => Prod.mk.inj (hu _ ⟨j, hj, rfl⟩ hx)⟩
  · rintro ⟨he, hu⟩
    refine ⟨⟨i, hi, rfl⟩, he, ?_⟩
    rintro q ⟨j, hj, rfl⟩ hx
    exact Prod.ext (hu j hj hx).1 (hu j hj hx).2

/-- What modules have in the examples. -/
def swiftHas (m n : Str) : Prop :=
  (m, n) ∈ [("Foundation".toList, "Data".toList), ("Swift".toList, "String".toList), ("Mine".toList, "String".toList),
    ("Mine".toList, "Data".toList)]

instance (m n : Str) : Decidable (swiftHas m n) := by unfold swiftHas; infer_instance

/-- `String` of `Mine` beside `Data` of `Foundation`. -/
example :
    let i : Swift.Import := ⟨.static "Mine".toList, .static "String".toList⟩
    let j : Swift.Import := ⟨.static "Foundation".toList, .static "Data".toList⟩
    swiftHas i.module.text i.name.text ∧
      (∀ k ∈ inserted [Call.appendLang i, .space, .appendLang j], swiftHas k.module.text i.name.text →
        k.module.text = i.module.text ∨ k.module.text = SwiftFile.standard) ∧
      (i.module.text = SwiftFile.standard → ∀ k ∈ inserted [Call.appendLang i, .space, .appendLang j],
        swiftHas k.module.text i.name.text → k.module.text = SwiftFile.standard) := by decide

/-- C100. `Data` of `Foundation` beside `Data` of `Mine` means neither of them, and `String` of
`Swift` beside any name of `Mine` is the one of `Mine`. -/
theorem C100_swift_witness :
    let i : Swift.Import := ⟨.static "Foundation".toList, .static "Data".toList⟩
    let j : Swift.Import := ⟨.static "Mine".toList, .static "Data".toList⟩
    let k : Swift.Import := ⟨.static "Swift".toList, .static "String".toList⟩
    toFileVec Swift.lang ⟨.tab, ['\n']⟩ (Swift.file (history [.appendLang i, .space, .appendLang j])) =
        some ["import Foundation".toList, "import Mine".toList, [], "Data Data".toList] ∧
      ¬ SwiftFile.Denotes ["Foundation".toList, "Mine".toList] swiftHas "Data".toList i.module.text i.name.text ∧
    toFileVec Swift.lang ⟨.tab, ['\n']⟩ (Swift.file (history [.appendLang j, .space, .appendLang k])) =
        some ["import Mine".toList, "import Swift".toList, [], "Data String".toList] ∧
      ¬ SwiftFile.Denotes ["Mine".toList, "Swift".toList] swiftHas "String".toList k.module.text k.name.text ∧
      SwiftFile.Denotes ["Mine".toList, "Swift".toList] swiftHas "String".toList "Mine".toList "String".toList := by
  refine ⟨by decide +kernel, ?_, by decide +kernel, ?_, ?_⟩
  · rintro ⟨-, -, -, h⟩
    exact absurd (h "Mine".toList (.inl (by simp)) (by decide)) (by decide)
  · rintro ⟨-, -, -, h⟩
    exact absurd (h "Mine".toList (.inl (by simp)) (by decide)) (by decide)
  · refine ⟨rfl, .inl (by simp), by decide, ?_⟩
    rintro q (hq | rfl) hx
    · simp only [List.mem_cons, List.not_mem_nil, or_false] at hq
      rcases hq with rfl | rfl
      · exact .inl rfl
      · exact .inr (by decide)
    · exact .inr (by decide)

/-- What headers declare in the examples. -/
def cHas (h : Str × Bool) (n : Str) : Prop :=
  (h, n) ∈ [(("stdio.h".toList, true), "printf".toList), (("mine.h".toList, false), "printf".toList),
    (("mine.h".toList, false), "f".toList)]

instance (h : Str × Bool) (n : Str) : Decidable (cHas h n) := by unfold cHas; infer_instance

example :
    let i : C.Import := ⟨.static "stdio.h".toList, .static "printf".toList, true⟩
    cHas (i.path.text, i.system) i.item.text ∧
      ∀ j ∈ inserted [Call.appendLang i, .space, .appendLang i], cHas (j.path.text, j.system) i.item.text →
        j.path.text = i.path.text ∧ j.system = i.system := by decide

/-- C100. `printf` beside any name of a header that also declares it does not mean one of them. -/
theorem C100_c_witness :
    let i : C.Import := ⟨.static "stdio.h".toList, .static "printf".toList, true⟩
    let j : C.Import := ⟨.static "mine.h".toList, .static "f".toList, false⟩
    toFileVec C.lang ⟨.tab, ['\n']⟩ (C.file (history [.appendLang i, .space, .appendLang j])) =
        some ["#include \"mine.h\"".toList, "#include <stdio.h>".toList, [], "printf f".toList] ∧
      ¬ CFile.Denotes [("mine.h".toList, false), ("stdio.h".toList, true)] cHas "printf".toList
        (i.path.text, i.system) i.item.text ∧
      CFile.Denotes [("mine.h".toList, false), ("stdio.h".toList, true)] cHas "f".toList
        (j.path.text, j.system) j.item.text := by
  refine ⟨by decide +kernel, ?_, rfl, by simp [ItemStr.text], by decide, by decide⟩
  rintro ⟨-, -, -, h⟩
  exact absurd (h ("mine.h".toList, false) (by simp) (by decide)) (by decide)

end Genco.Props
