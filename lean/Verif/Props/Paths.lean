import Verif.Proofs.Paths
import Verif.Props.Js

/-!
# Where the imports of a JavaScript file lead (C84)
-/

set_option autoImplicit false

namespace Genco.Props

open Genco Spec Spec.JsFile Spec.Paths Js

/-- C84, in part: followed from the configured module path as if that were a directory, the
specifier leads to the imported module exactly if the module path does not begin with more steps
up than the path of the module. -/
theorem C84_directory_partial (m p : Str) :
    walk (walk here m) (pathFrom (some m) (components p)) = walk here p ↔
      (walk here m).ups ≤ (walk here p).ups := by
  rw [walk_pathFrom, ← walk_components, ← walk_components here p]
  constructor
  · intro h
    rw [← h]
    exact ups_walk _ _
  · intro h
    rcases relative_ok (components m) (components p) with ⟨-, h'⟩ | h'
    · omega
    · exact h'

/-- C84: without a module path the specifier is the path itself. -/
theorem C84_without (p : Str) (q : Place) : walk q (pathFrom none (components p)) = walk q p := by
  rw [← walk_components q p]
  exact walk_pathText _ (clean_components p) q

/-- C84 is false: in a file at the configured module path no import of a path module ever leads
to that module, whatever the two paths are. -/
theorem C84_never (m p : Str) :
    imported (walk here m) (pathFrom (some m) (components p)) ≠ some (walk here p) := by
  unfold imported
  split
  · rename_i hr
    rcases relative_ok (components m) (components p) with ⟨h, -⟩ | h
    · have e : pathFrom (some m) (components p) = [] := by
        show pathText (relative _ _) = []
        rw [h]; rfl
      rw [e] at hr
      exact absurd hr (by decide)
    · intro hc
      rw [Option.some.injEq, walk_pathFrom] at hc
      have h1 := depth_walk (relative (components m) (components p)) (walk here m).dir (walk here m)
      rw [depth_dir, hc] at h1
      rw [walk_components, walk_components] at h
      rw [h] at h1
      omega
  · simp

/-- C84 for files, in part: every import of a path module has a declaration that binds its name,
and its specifier, followed from the module path as if that were a directory, leads to the
module; followed as JavaScript does it, it does not. -/
theorem C84_file_partial (m : Str) (cfg : Config) (cs : List (Call Js.Import))
    (hb : losesSpace Js.lang.langItem (history cs).items = false)
    (hc : NoClash (inserted cs)) (ho : OneDefault (inserted cs)) :
    ∃ ds : List Decl,
      toFileVec Js.lang cfg (Js.file (pathFrom (some m)) (history cs)) =
        (toVec Js.lang cfg (history cs).items).map (fileLines (ds.map Decl.text)) ∧
      ∀ i ∈ inserted cs, ∀ p : Str, i.module = .path (components p) →
        ∃ spec v, ((Js.lang.langItem i).flatten, (spec, v)) ∈ ds.flatMap Decl.bindings ∧
          (walk (walk here m) spec = walk here p ↔ (walk here m).ups ≤ (walk here p).ups) ∧
          imported (walk here m) spec ≠ some (walk here p) := by
  obtain ⟨ds, h1, -, h3⟩ := C41_js_partial (pathFrom (some m)) cfg cs hb hc ho
  refine ⟨ds, h1, fun i hi p hp => ?_⟩
  have h := h3 i hi
  simp only [target, source, hp] at h
  exact ⟨_, _, h, C84_directory_partial m p, C84_never m p⟩

/-- The documentation of `Config::with_module_path`, src/lang/js.rs 204-238. -/
def jsPathDemo : List (Call Js.Import) :=
  [.appendLang ⟨.named, .path (components "foo/bar.js".toList), .static "Foo1".toList, none⟩, .push,
   .appendLang ⟨.named, .path (components "foo/bar.js".toList), .static "Foo2".toList, none⟩, .push,
   .appendLang ⟨.default, .global (.static "react".toList), .static "React".toList, none⟩]

example : toFileVec Js.lang ⟨.space 4, ['\n']⟩
    (Js.file (pathFrom (some "foo/baz.js".toList)) (history jsPathDemo)) =
    some ["import {Foo1, Foo2} from \"../bar.js\";".toList, "import React from \"react\";".toList, [],
      "Foo1".toList, "Foo2".toList, "React".toList] := by decide +kernel

example : losesSpace Js.lang.langItem (history jsPathDemo).items = false ∧
    NoClash (inserted jsPathDemo) ∧ OneDefault (inserted jsPathDemo) := by
  refine ⟨by decide +kernel, ?_, ?_⟩
  · unfold NoClash Same; decide +kernel
  · unfold OneDefault; decide +kernel

/-- The file of the documentation is imported from one directory too far up. -/
example : imported (walk here "foo/baz.js".toList) (pathFrom (some "foo/baz.js".toList) (components "foo/bar.js".toList)) =
    some (walk here "bar.js".toList) ∧ walk here "bar.js".toList ≠ walk here "foo/bar.js".toList := by decide +kernel

/-- A module below the module path becomes the name of a package. -/
example : pathFrom (some "./foo".toList) (components "foo//x/../bar.js".toList) = "bar.js".toList ∧
    imported (walk here "./foo".toList) "bar.js".toList = none := by decide +kernel

/-- More steps up: there is no such path, and the specifier is empty. -/
example : pathFrom (some "../../foo.js".toList) (components "../bar.js".toList) = [] := by decide +kernel

example : (walk here "foo/../../baz.js".toList).ups ≤ (walk here ".././a/b.js".toList).ups ∧
    pathFrom (some "foo/../../baz.js".toList) (components ".././a/b.js".toList) = "../a/b.js".toList := by
  decide +kernel

end Genco.Props
