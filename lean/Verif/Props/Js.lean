import Verif.Proofs.Js
import Verif.Proofs.Inject
import Verif.Props.Csharp

/-!
# Properties of JavaScript files (C41 and parts of C49–C51)
-/

set_option autoImplicit false

namespace Genco.Props

open Genco Spec Spec.JsFile Js

/-- What a module declaration says. -/
structure ModuleLine where
  module : Mod
  default_ : Option ItemStr
  plain : List ItemStr
  aliased : List (ItemStr × ItemStr)

/-- It as declaration: the default name, the plain names, then the renamed ones. -/
def ModuleLine.decl (rel : List Component → Str) (m : ModuleLine) : Decl :=
  .clause (m.default_.map ItemStr.text)
    (m.plain.map (fun n => (n.text, none)) ++ m.aliased.map (fun p => (p.1.text, some p.2.text)))
    (source rel m.module)

/-- C41. A JavaScript file is one declaration per wildcard import, sorted, then one
per module used otherwise, sorted, and the body. A module declaration has the
default name that was inserted first, the plain names, sorted, and the renamed
ones, sorted; nothing else. -/
theorem C41_header (rel : List Component → Str) (cfg : Config) (cs : List (Call Js.Import))
    (hb : losesSpace Js.lang.langItem (history cs).items = false) :
    ∃ (ws : List (Mod × ItemStr)) (ms : List ModuleLine),
      toFileVec Js.lang cfg (Js.file rel (history cs)) =
        (toVec Js.lang cfg (history cs).items).map (fileLines
          (ws.map (fun w => (Decl.wildcard w.2.text (source rel w.1)).text) ++
            ms.map (fun m => (m.decl rel).text))) ∧
      Sorted ws ∧
      (∀ m n, (m, n) ∈ ws ↔ ∃ i ∈ inserted cs, i.kind = .wildcard ∧ i.module = m ∧ i.name = n) ∧
      Sorted (ms.map (·.module)) ∧
      (∀ m, m ∈ ms.map (·.module) ↔ ∃ i ∈ inserted cs, i.kind ≠ .wildcard ∧ i.module = m) ∧
      ∀ m ∈ ms,
        m.default_ = ((inserted cs).find? (fun i => i.kind = .default ∧ i.module = m.module)).map (·.name) ∧
        Sorted m.plain ∧ Sorted m.aliased ∧
        (∀ n, n ∈ m.plain ↔
          ∃ i ∈ inserted cs, i.kind = .named ∧ i.module = m.module ∧ i.name = n ∧ i.alias = none) ∧
        ∀ n a, (n, a) ∈ m.aliased ↔
          ∃ i ∈ inserted cs, i.kind = .named ∧ i.module = m.module ∧ i.name = n ∧ i.alias = some a := by
  have hs := sets_ok (history cs).walkImports
  refine ⟨(sets (history cs).walkImports).wildcards,
    (sets (history cs).walkImports).modules.map
      (fun e => ⟨e.1, e.2.defaultImport, e.2.set.filterMap plainOf, e.2.set.filterMap aliasOf⟩),
    ?_, ?_, ?_, ?_, ?_, ?_⟩
  · rw [Js.file_eq rel cfg _ hb]
    refine congrArg (fun x => Option.map (fileLines x) _) ?_
    simp only [decls, List.map_append, List.map_map]
    refine congrArg₂ (· ++ ·) rfl ?_
    refine List.map_congr_left fun e he => ?_
    refine congrArg Decl.text (a₁ := modDecl rel e) (a₂ := ModuleLine.decl rel ⟨e.1, e.2.defaultImport,
      e.2.set.filterMap plainOf, e.2.set.filterMap aliasOf⟩) ?_
    have hi : Increasing e.2.set := by rw [(module_get he).2]; exact increasing_setOf _
    show Decl.clause _ (e.2.set.map el') _ = _
    rw [(split_elements hi).1]
    rfl
  · rw [hs.wild]; exact increasing_setOf _
  · intro m n
    rw [hs.wild, mem_setOf, List.mem_filterMap]
    constructor
    · rintro ⟨i, hi, h⟩
      unfold wild at h
      split at h
      · cases h; exact ⟨i, (walk_mem cs i).1 hi, by assumption, rfl, rfl⟩
      · simp at h
    · rintro ⟨i, hi, hk, rfl, rfl⟩
      exact ⟨i, (walk_mem cs i).2 hi, by simp [wild, hk]⟩
  · rw [List.map_map]; exact hs.keys
  · intro m
    rw [List.map_map]
    have : m ∈ (sets (history cs).walkImports).modules.map Prod.fst ↔ used m (history cs).walkImports = true := by
      constructor
      · intro h
        obtain ⟨e, he, rfl⟩ := List.mem_map.1 h
        exact (module_get he).1
      · intro h
        have hg := hs.get m
        rw [if_pos h] at hg
        exact List.mem_map.2 ⟨_, mem_of_mapGet hg, rfl⟩
    refine this.trans ?_
    simp only [used, List.any_eq_true, decide_eq_true_eq, walk_mem]
  · intro m hm
    obtain ⟨e, he, rfl⟩ := List.mem_map.1 hm
    obtain ⟨-, hg⟩ := module_get he
    have hi : Increasing e.2.set := by rw [hg]; exact increasing_setOf _
    have hset : ∀ x, x ∈ e.2.set ↔ ∃ i ∈ inserted cs, (i.kind = .named ∧ i.module = e.1) ∧ elOf i = x := by
      intro x
      rw [hg, mem_setOf, elems, List.mem_filterMap]
      simp only [walk_mem, Option.ite_none_right_eq_some, Option.some.injEq]
    refine ⟨?_, (split_elements hi).2.1, (split_elements hi).2.2, ?_, ?_⟩
    · dsimp only
      rw [hg]
      dsimp only
      rw [defaultOf, C03_walk_imports, List.reverse_reverse]
    · intro n
      rw [List.mem_filterMap]
      constructor
      · rintro ⟨x, hx, h⟩
        cases x with
        | plain y =>
          cases h
          obtain ⟨i, hi, ⟨h1, h2⟩, h3⟩ := (hset _).1 hx
          refine ⟨i, hi, h1, h2, ?_⟩
          unfold elOf at h3
          split at h3
          · cases h3; exact ⟨rfl, by assumption⟩
          · cases h3
        | aliased y a => simp [plainOf] at h
      · rintro ⟨i, hi, h1, h2, rfl, h4⟩
        exact ⟨elOf i, (hset _).2 ⟨i, hi, ⟨h1, h2⟩, rfl⟩, by simp [elOf, h4, plainOf]⟩
    · intro n a
      rw [List.mem_filterMap]
      constructor
      · rintro ⟨x, hx, h⟩
        cases x with
        | plain y => simp [aliasOf] at h
        | aliased y b =>
          cases h
          obtain ⟨i, hi, ⟨h1, h2⟩, h3⟩ := (hset _).1 hx
          refine ⟨i, hi, h1, h2, ?_⟩
          unfold elOf at h3
          split at h3
          · cases h3
          · cases h3; exact ⟨rfl, by assumption⟩
      · rintro ⟨i, hi, h1, h2, rfl, h4⟩
        exact ⟨elOf i, (hset _).2 ⟨i, hi, ⟨h1, h2⟩, rfl⟩, by simp [elOf, h4, aliasOf]⟩

/-- C41. Exactly what a file binds: every import its name, except default names of a
module other than the first; and exactly when no name is bound twice. -/
theorem C41_bindings (rel : List Component → Str) (cfg : Config) (cs : List (Call Js.Import))
    (hb : losesSpace Js.lang.langItem (history cs).items = false) :
    ∃ ds : List Decl,
      toFileVec Js.lang cfg (Js.file rel (history cs)) =
        (toVec Js.lang cfg (history cs).items).map (fileLines (ds.map Decl.text)) ∧
      (((ds.flatMap Decl.bindings).map Prod.fst).Nodup ↔ Distinct (inserted cs)) ∧
      (∀ n v, (n, v) ∈ ds.flatMap Decl.bindings ↔
        ∃ i ∈ inserted cs, Kept (inserted cs) i ∧ n = (Js.lang.langItem i).flatten ∧ v = target rel i) := by
  have e : ∀ i : Js.Import, (Js.lang.langItem i).flatten = localName i := by
    intro i
    show (i.format).flatten = _
    obtain ⟨k, m, n, a⟩ := i
    cases k <;> cases a <;> simp [Js.Import.format, localName]
  have hr : (history cs).walkImports.reverse = inserted cs := by
    rw [C03_walk_imports, List.reverse_reverse]
  refine ⟨decls rel (history cs).walkImports, Js.file_eq rel cfg _ hb, ?_, ?_⟩
  · rw [names_nodup, hr]
  · intro n v
    rw [mem_bindings, hr]
    simp only [walk_mem, Prod.mk.injEq, e]

/-- C41, in part: every rendered name is bound to what its import asks for, and no
name is bound twice, if different imports have different names and modules have one
default name (see `C41_default_witness`). -/
theorem C41_js_partial (rel : List Component → Str) (cfg : Config) (cs : List (Call Js.Import))
    (hb : losesSpace Js.lang.langItem (history cs).items = false)
    (hc : NoClash (inserted cs)) (ho : OneDefault (inserted cs)) :
    ∃ ds : List Decl,
      toFileVec Js.lang cfg (Js.file rel (history cs)) =
        (toVec Js.lang cfg (history cs).items).map (fileLines (ds.map Decl.text)) ∧
      ((ds.flatMap Decl.bindings).map Prod.fst).Nodup ∧
      ∀ i ∈ inserted cs,
        ((Js.lang.langItem i).flatten, target rel i) ∈ ds.flatMap Decl.bindings := by
  obtain ⟨ds, h1, h2, h3⟩ := C41_bindings rel cfg cs hb
  refine ⟨ds, h1, h2.2 fun i hi j hj _ _ => hc i hi j hj, fun i hi => ?_⟩
  exact (h3 _ _).2 ⟨i, hi, kept_of_one ho hi, rfl, rfl⟩

/-- The stream of the examples. -/
def jsDemo : List (Call Js.Import) :=
  [.appendLang ⟨.named, .global (.static "collections".toList), .static "vec".toList, none⟩, .space,
   .appendLang ⟨.named, .global (.static "collections".toList), .static "set".toList,
     some (.static "bag".toList)⟩, .space,
   .appendLang ⟨.default, .global (.static "collections".toList), .static "coll".toList, none⟩, .space,
   .appendLang ⟨.named, .global (.static "collections".toList), .static "arr".toList, none⟩, .push,
   .appendLang ⟨.wildcard, .path [.normal "b.js".toList], .static "all".toList, none⟩, .space,
   .appendLang ⟨.default, .path [.normal "b.js".toList], .static "b".toList, none⟩]

/-- A way to write paths. -/
def demoRel (p : List Component) : Str :=
  "./".toList ++ p.flatMap (fun | .normal s => s | .parentDir => "..".toList | .curDir => ".".toList)

example : toFileVec Js.lang ⟨.space 4, ['\n']⟩ (Js.file demoRel (history jsDemo)) =
    some ["import * as all from \"./b.js\";".toList, "import b from \"./b.js\";".toList,
      "import coll, {arr, vec, set as bag} from \"collections\";".toList, [],
      "vec bag coll arr".toList, "all b".toList] := by decide +kernel

example : losesSpace Js.lang.langItem (history jsDemo).items = false ∧
    NoClash (inserted jsDemo) ∧ OneDefault (inserted jsDemo) := by
  refine ⟨by decide +kernel, ?_, ?_⟩
  · unfold NoClash Same; decide +kernel
  · unfold OneDefault; decide +kernel

/-- C41: of two default names of a module only one is bound. -/
theorem C41_default_witness (rel : List Component → Str) :
    let i : Js.Import := ⟨.default, .global (.static "m".toList), .static "a".toList, none⟩
    let j : Js.Import := ⟨.default, .global (.static "m".toList), .static "b".toList, none⟩
    let ds := [Decl.clause (some "a".toList) [] "m".toList]
    toFileVec Js.lang ⟨.space 4, ['\n']⟩ (Js.file rel (history [.appendLang i, .space, .appendLang j])) =
      some (ds.map Decl.text ++ [[], "a b".toList]) ∧
    NoClash [i, j] ∧
    ∀ v, ((Js.lang.langItem j).flatten, v) ∉ ds.flatMap Decl.bindings := by
  refine ⟨?_, ?_, ?_⟩
  · have e : ∀ r : List Component → Str, (Js.file r (history
        [.appendLang ⟨.default, .global (.static "m".toList), .static "a".toList, none⟩, .space,
          .appendLang ⟨.default, .global (.static "m".toList), .static "b".toList, none⟩])) =
        Js.file demoRel (history
        [.appendLang ⟨.default, .global (.static "m".toList), .static "a".toList, none⟩, .space,
          .appendLang ⟨.default, .global (.static "m".toList), .static "b".toList, none⟩]) := fun _ => rfl
    rw [e]
    decide +kernel
  · unfold NoClash Same; decide +kernel
  · intro v
    simp [Decl.bindings, Js.lang, jsLang, Js.Import.format, ItemStr.text]

/-- C49 for JavaScript: the header depends only on the set of imports if
modules have one default name. -/
theorem C49_js (rel : List Component → Str) (cs ds : List (Call Js.Import))
    (h : ∀ i, i ∈ inserted cs ↔ i ∈ inserted ds) (ho : OneDefault (inserted cs)) :
    (Js.file rel (history cs)).head? = (Js.file rel (history ds)).head? := by
  have hw : ∀ i, i ∈ (history cs).walkImports ↔ i ∈ (history ds).walkImports := by
    intro i; rw [walk_mem, walk_mem, h]
  have ho' : OneDefault (history cs).walkImports :=
    fun i hi j hj => ho i ((walk_mem cs i).1 hi) j ((walk_mem cs j).1 hj)
  have hk := sets_congr hw ho'
  simp only [Js.file, Js.header, Js.importCalls, hk, List.head?_cons]

/-- C49: with two default names the order decides. -/
theorem C49_js_witness (rel : List Component → Str) :
    let i : Js.Import := ⟨.default, .global (.static "m".toList), .static "a".toList, none⟩
    let j : Js.Import := ⟨.default, .global (.static "m".toList), .static "b".toList, none⟩
    (Js.file rel (history [.appendLang i, .space, .appendLang j])).head? ≠
      (Js.file rel (history [.appendLang j, .space, .appendLang i])).head? := by
  have e : ∀ (i j : ItemStr), (Js.file rel (history
        [.appendLang ⟨.default, .global (.static "m".toList), i, none⟩, .space,
          .appendLang ⟨.default, .global (.static "m".toList), j, none⟩])) =
        Js.file demoRel (history
        [.appendLang ⟨.default, .global (.static "m".toList), i, none⟩, .space,
          .appendLang ⟨.default, .global (.static "m".toList), j, none⟩]) := fun _ _ => rfl
  dsimp only
  rw [e, e]
  decide +kernel

/-- C50 for JavaScript, in part: no line twice if equal texts come from equal names
and modules, and names contain neither quotes nor stars. -/
theorem C50_js_partial (rel : List Component → Str) (cfg : Config) (cs : List (Call Js.Import))
    (hb : losesSpace Js.lang.langItem (history cs).items = false)
    (hu : Uniform (fun i : Js.Import => [i.name]) (inserted cs))
    (hm : ∀ i ∈ inserted cs, ∀ j ∈ inserted cs,
      source rel i.module = source rel j.module → i.module = j.module)
    (hn : ∀ i ∈ inserted cs, ∀ x ∈ i.name :: i.alias.toList, '"' ∉ x.text ∧ '*' ∉ x.text) :
    ∃ hd : List Str,
      toFileVec Js.lang cfg (Js.file rel (history cs)) =
        (toVec Js.lang cfg (history cs).items).map (fileLines hd) ∧ hd.Nodup := by
  obtain ⟨ws, ms, h1, h2, h3, h4, h5, h6⟩ := C41_header rel cfg cs hb
  refine ⟨_, h1, ?_⟩
  have hwq : ∀ w ∈ ws, '"' ∉ w.2.text := by
    intro w hw
    obtain ⟨i, hi, -, -, e⟩ := (h3 w.1 w.2).1 hw
    rw [← e]; exact (hn i hi _ (by simp)).1
  have hmq : ∀ m ∈ ms, (∀ d ∈ m.default_, '"' ∉ d.text ∧ '*' ∉ d.text) ∧
      (∀ n ∈ m.plain, '"' ∉ n.text) ∧ ∀ p ∈ m.aliased, '"' ∉ p.1.text ∧ '"' ∉ p.2.text := by
    intro m hm
    obtain ⟨e1, -, -, e4, e5⟩ := h6 m hm
    refine ⟨?_, ?_, ?_⟩
    · intro d hd
      rw [e1, Option.mem_def, Option.map_eq_some_iff] at hd
      obtain ⟨i, hi, rfl⟩ := hd
      exact hn i (List.mem_of_find?_eq_some hi) _ (by simp)
    · intro n hn'
      obtain ⟨i, hi, -, -, rfl, -⟩ := (e4 n).1 hn'
      exact (hn i hi _ (by simp)).1
    · rintro ⟨n, a⟩ hp
      obtain ⟨i, hi, -, -, rfl, ha⟩ := (e5 n a).1 hp
      exact ⟨(hn i hi _ (by simp)).1, (hn i hi a (by simp [ha])).1⟩
  have hcl : ∀ m ∈ ms, ∃ w, '"' ∉ w ∧ w.head? ≠ some '*' ∧
      (m.decl rel).text = line w (source rel m.module) := by
    intro m hm
    obtain ⟨q1, q2, q3⟩ := hmq m hm
    refine ⟨_, ?_, ?_, rfl⟩
    · refine clauseText_quote ?_ ?_
      · intro d hd
        obtain ⟨x, hx, rfl⟩ := Option.map_eq_some_iff.1 hd
        exact (q1 x hx).1
      · intro n hn'
        rcases List.mem_append.1 hn' with h | h
        · obtain ⟨x, hx, rfl⟩ := List.mem_map.1 h
          exact ⟨q2 x hx, by simp⟩
        · obtain ⟨x, hx, rfl⟩ := List.mem_map.1 h
          exact ⟨(q3 x hx).1, by rintro a ha; cases ha; exact (q3 x hx).2⟩
    · refine clauseText_head ?_
      intro d hd
      obtain ⟨x, hx, rfl⟩ := Option.map_eq_some_iff.1 hd
      exact (q1 x hx).2
  have hstar : ∀ x : Str, '"' ∉ x → '"' ∉ "* as ".toList ++ x := by
    intro x hx h
    rcases List.mem_append.1 h with h | h
    · exact absurd h (by decide)
    · exact hx h
  rw [List.nodup_append]
  refine ⟨nodup_map (Increasing.nodup h2) ?_, nodup_map ?_ ?_, ?_⟩
  · intro a ha b hb' hab
    obtain ⟨e1, e2⟩ := line_inj (hstar _ (hwq a ha)) (hstar _ (hwq b hb')) hab
    obtain ⟨i, hi, -, mi, ni⟩ := (h3 a.1 a.2).1 ha
    obtain ⟨j, hj, -, mj, nj⟩ := (h3 b.1 b.2).1 hb'
    refine Prod.ext ?_ ?_
    · rw [← mi, ← mj]; exact hm i hi j hj (by rw [mi, mj]; exact e2)
    · refine hu i hi j hj _ (by simp [ni]) _ (by simp [nj]) (List.append_cancel_left e1)
  · exact List.Pairwise.of_map (·.module) (fun a b h e => h (by rw [e])) (Increasing.nodup h4)
  · intro a ha b hb' hab
    obtain ⟨w, hw, -, ea⟩ := hcl a ha
    obtain ⟨v, hv, -, eb⟩ := hcl b hb'
    rw [ea, eb] at hab
    obtain ⟨-, e2⟩ := line_inj hw hv hab
    obtain ⟨i, hi, -, mi⟩ := (h5 _).1 (List.mem_map.2 ⟨a, ha, rfl⟩)
    obtain ⟨j, hj, -, mj⟩ := (h5 _).1 (List.mem_map.2 ⟨b, hb', rfl⟩)
    have hk : a.module = b.module := by
      rw [← mi, ← mj]; exact hm i hi j hj (by rw [mi, mj]; exact e2)
    exact nodup_key (Increasing.nodup h4) ha hb' hk
  · intro a ha b hb' hab
    obtain ⟨x, hx, rfl⟩ := List.mem_map.1 ha
    obtain ⟨y, hy, rfl⟩ := List.mem_map.1 hb'
    obtain ⟨w, hw, hs, ea⟩ := hcl y hy
    rw [ea] at hab
    obtain ⟨e1, -⟩ := line_inj (hstar _ (hwq x hx)) hw hab
    exact hs (by rw [← e1]; rfl)

/-- The example meets the hypotheses. -/
example : Uniform (fun i : Js.Import => [i.name]) (inserted jsDemo) ∧
    (∀ i ∈ inserted jsDemo, ∀ j ∈ inserted jsDemo,
      source demoRel i.module = source demoRel j.module → i.module = j.module) ∧
    (∀ i ∈ inserted jsDemo, ∀ x ∈ i.name :: i.alias.toList, '"' ∉ x.text ∧ '*' ∉ x.text) := by
  refine ⟨?_, by decide +kernel, by decide +kernel⟩
  unfold Uniform
  decide +kernel

/-- C50: a module stored once boxed and once static; the file also binds the name
twice. -/
theorem C50_js_witness (rel : List Component → Str) :
    toFileVec Js.lang ⟨.space 4, ['\n']⟩ (Js.file rel (history
      [.appendLang ⟨.named, .global (.static "m".toList), .static "a".toList, none⟩, .space,
       .appendLang ⟨.named, .global (.box "m".toList), .static "a".toList, none⟩])) =
    some ["import {a} from \"m\";".toList, "import {a} from \"m\";".toList, [], "a a".toList] := by
  have e : (Js.file rel (history
      [.appendLang ⟨.named, .global (.static "m".toList), .static "a".toList, none⟩, .space,
       .appendLang ⟨.named, .global (.box "m".toList), .static "a".toList, none⟩])) =
      Js.file demoRel (history
      [.appendLang ⟨.named, .global (.static "m".toList), .static "a".toList, none⟩, .space,
       .appendLang ⟨.named, .global (.box "m".toList), .static "a".toList, none⟩]) := rfl
  rw [e]
  decide +kernel

/-- C51 for JavaScript. -/
theorem C51_js (rel : List Component → Str) (cfg : Config) (cs : List (Call Js.Import))
    (hb : losesSpace Js.lang.langItem (history cs).items = false) :
    ∃ hd : List Str,
      toFileVec Js.lang cfg (Js.file rel (history cs)) =
        (toVec Js.lang cfg (history cs).items).map (fileLines hd) ∧
      (hd = [] ↔ inserted cs = []) := by
  obtain ⟨ws, ms, h1, -, h3, -, h5, -⟩ := C41_header rel cfg cs hb
  refine ⟨_, h1, ?_⟩
  rw [List.append_eq_nil_iff, List.map_eq_nil_iff, List.map_eq_nil_iff]
  constructor
  · rintro ⟨rfl, rfl⟩
    rw [List.eq_nil_iff_forall_not_mem]
    intro i hi
    by_cases hk : i.kind = .wildcard
    · exact absurd ((h3 _ _).2 ⟨i, hi, hk, rfl, rfl⟩) (by simp)
    · exact absurd ((h5 _).2 ⟨i, hi, hk, rfl⟩) (by simp)
  · intro h
    rw [h] at h3 h5
    constructor
    · rw [List.eq_nil_iff_forall_not_mem]
      intro w hw
      obtain ⟨i, hi, -⟩ := (h3 w.1 w.2).1 hw
      simp at hi
    · rw [List.eq_nil_iff_forall_not_mem]
      intro m hm
      obtain ⟨i, hi, -⟩ := (h5 _).1 (List.mem_map.2 ⟨m, hm, rfl⟩)
      simp at hi

end Genco.Props
