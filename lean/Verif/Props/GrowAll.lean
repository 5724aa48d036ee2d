import Verif.Props.Simple
import Verif.Props.Rust
import Verif.Props.Python
import Verif.Props.Js
import Verif.Props.Nix
import Verif.Props.Extend
import Verif.Props.Grow

/-!
# C108: adding code to files of the other languages
-/

set_option autoImplicit false

namespace Genco.Props

open Genco Spec

theorem sorted_sublist {α : Type} [Ord α] [Std.TransOrd α] [Std.LawfulEqOrd α] {b : List α} :
    ∀ {a : List α}, Sorted a → Sorted b → a ⊆ b → a.Sublist b := by
  have irr : ∀ x : α, compare x x ≠ .lt := fun x h => by
    rw [Std.ReflCmp.compare_self (cmp := compare)] at h; cases h
  induction b with
  | nil => intro a _ _ h; rw [List.subset_nil.1 h]
  | cons y b ih =>
    intro a ha hb h
    cases a with
    | nil => exact List.nil_sublist _
    | cons x a =>
      have ha' := List.pairwise_cons.1 ha
      have hb' := List.pairwise_cons.1 hb
      rcases List.mem_cons.1 (h List.mem_cons_self) with rfl | hx
      · refine (ih ha'.2 hb'.2 fun z hz => ?_).cons_cons _
        rcases List.mem_cons.1 (h (List.mem_cons_of_mem _ hz)) with rfl | hz'
        · exact absurd (ha'.1 _ hz) (irr _)
        · exact hz'
      · refine (ih ha hb'.2 fun z hz => ?_).cons _
        rcases List.mem_cons.1 (h hz) with rfl | hz'
        · have hyx := hb'.1 x hx
          rcases List.mem_cons.1 hz with rfl | hz
          · exact absurd hyx (irr _)
          · exact absurd (Std.TransCmp.lt_trans hyx (ha'.1 _ hz)) (irr _)
        · exact hz'

theorem mem_grown {ι : Type} (cs ds : List (Call ι)) (i : ι) (h : i ∈ inserted cs) : i ∈ inserted (cs ++ ds) := by
  rw [grown]; exact List.mem_append_left _ h

/-- C108, Go. The imports stay, in their order. -/
theorem C108_go (package : Option ItemStr) (cfg : Config) (cs ds : List (Call Go.Import))
    (hb : losesSpace Go.lang.langItem (history cs).items = false)
    (hb' : losesSpace Go.lang.langItem (history (cs ++ ds)).items = false) :
    ∃ ms ms' : List ItemStr, ms.Sublist ms' ∧
      toFileVec Go.lang cfg (Go.file package (history cs)) =
        (toVec Go.lang cfg (history cs).items).map (fileLines (paragraphs
          [(package.map (fun p => GoFile.packageLine p.text)).toList, ms.map (fun m => GoFile.importLine m.text)])) ∧
      toFileVec Go.lang cfg (Go.file package (history (cs ++ ds))) =
        (toVec Go.lang cfg (history (cs ++ ds)).items).map (fileLines (paragraphs
          [(package.map (fun p => GoFile.packageLine p.text)).toList, ms'.map (fun m => GoFile.importLine m.text)])) := by
  obtain ⟨ms, h1, s, h2⟩ := C44_go package cfg cs hb
  obtain ⟨ms', h1', s', h2'⟩ := C44_go package cfg (cs ++ ds) hb'
  refine ⟨ms, ms', sorted_sublist s s' fun m hm => ?_, h1, h1'⟩
  obtain ⟨i, hi, h⟩ := (h2 m).1 hm
  exact (h2' m).2 ⟨i, mem_grown cs ds i hi, h⟩

/-- C108, C. -/
theorem C108_c (cfg : Config) (cs ds : List (Call C.Import))
    (hb : losesSpace C.lang.langItem (history cs).items = false)
    (hb' : losesSpace C.lang.langItem (history (cs ++ ds)).items = false) :
    ∃ hd hd' : List Str, hd.Sublist hd' ∧
      toFileVec C.lang cfg (C.file (history cs)) = (toVec C.lang cfg (history cs).items).map (fileLines hd) ∧
      toFileVec C.lang cfg (C.file (history (cs ++ ds))) =
        (toVec C.lang cfg (history (cs ++ ds)).items).map (fileLines hd') := by
  obtain ⟨ms, h1, s, h2⟩ := C47_c cfg cs hb
  obtain ⟨ms', h1', s', h2'⟩ := C47_c cfg (cs ++ ds) hb'
  refine ⟨_, _, List.Sublist.map _ (sorted_sublist s s' fun m hm => ?_), h1, h1'⟩
  obtain ⟨i, hi, h⟩ := (h2 m).1 hm
  exact (h2' m).2 ⟨i, mem_grown cs ds i hi, h⟩

/-- C108, Swift. -/
theorem C108_swift (cfg : Config) (cs ds : List (Call Swift.Import))
    (hb : losesSpace Swift.lang.langItem (history cs).items = false)
    (hb' : losesSpace Swift.lang.langItem (history (cs ++ ds)).items = false) :
    ∃ hd hd' : List Str, hd.Sublist hd' ∧
      toFileVec Swift.lang cfg (Swift.file (history cs)) = (toVec Swift.lang cfg (history cs).items).map (fileLines hd) ∧
      toFileVec Swift.lang cfg (Swift.file (history (cs ++ ds))) =
        (toVec Swift.lang cfg (history (cs ++ ds)).items).map (fileLines hd') := by
  obtain ⟨ms, h1, s, h2⟩ := C47_swift cfg cs hb
  obtain ⟨ms', h1', s', h2'⟩ := C47_swift cfg (cs ++ ds) hb'
  refine ⟨_, _, List.Sublist.map _ (sorted_sublist s s' fun m hm => ?_), h1, h1'⟩
  obtain ⟨i, hi, h⟩ := (h2 m).1 hm
  exact (h2' m).2 ⟨i, mem_grown cs ds i hi, h⟩

/-- C108, Dart. -/
theorem C108_dart (cfg : Config) (cs ds : List (Call Dart.Import))
    (hb : losesSpace Dart.lang.langItem (history cs).items = false)
    (hb' : losesSpace Dart.lang.langItem (history (cs ++ ds)).items = false) :
    ∃ hd hd' : List Str, hd.Sublist hd' ∧
      toFileVec Dart.lang cfg (Dart.file (history cs)) = (toVec Dart.lang cfg (history cs).items).map (fileLines hd) ∧
      toFileVec Dart.lang cfg (Dart.file (history (cs ++ ds))) =
        (toVec Dart.lang cfg (history (cs ++ ds)).items).map (fileLines hd') := by
  obtain ⟨ms, h1, s, h2⟩ := C46_dart cfg cs hb
  obtain ⟨ms', h1', s', h2'⟩ := C46_dart cfg (cs ++ ds) hb'
  refine ⟨_, _, List.Sublist.map _ (sorted_sublist s s' fun m hm => ?_), h1, h1'⟩
  obtain ⟨i, hi, h⟩ := (h2 m).1 hm
  exact (h2' m).2 ⟨i, mem_grown cs ds i hi, h⟩

/-- C108, JavaScript. What is bound stays bound, to the same: of several names of a default export the first is bound,
so that adding another does not take it away. -/
theorem C108_js (rel : List Js.Component → Str) (cfg : Config) (cs ds : List (Call Js.Import))
    (hb : losesSpace Js.lang.langItem (history cs).items = false)
    (hb' : losesSpace Js.lang.langItem (history (cs ++ ds)).items = false) :
    ∃ es es' : List JsFile.Decl, es.flatMap JsFile.Decl.bindings ⊆ es'.flatMap JsFile.Decl.bindings ∧
      toFileVec Js.lang cfg (Js.file rel (history cs)) =
        (toVec Js.lang cfg (history cs).items).map (fileLines (es.map JsFile.Decl.text)) ∧
      toFileVec Js.lang cfg (Js.file rel (history (cs ++ ds))) =
        (toVec Js.lang cfg (history (cs ++ ds)).items).map (fileLines (es'.map JsFile.Decl.text)) := by
  obtain ⟨es, h1, -, h2⟩ := C41_bindings rel cfg cs hb
  obtain ⟨es', h1', -, h2'⟩ := C41_bindings rel cfg (cs ++ ds) hb'
  refine ⟨es, es', ?_, h1, h1'⟩
  rintro ⟨n, v⟩ hm
  obtain ⟨i, hi, hk, hn, hv⟩ := (h2 n v).1 hm
  refine (h2' n v).2 ⟨i, mem_grown cs ds i hi, fun hd => ?_, hn, hv⟩
  have := hk hd
  obtain ⟨j, hj, hjn⟩ := Option.map_eq_some_iff.1 this
  rw [grown, List.find?_append, hj]
  exact congrArg some hjn

/-- C108, Rust. Exactly which references still resolve: those that did, unless a path that is added claims the name. -/
theorem C108_rust (c : Rust.Mode) (cfg : Config) (cs ds : List (Call Rust.Import))
    (hb : losesSpace (Rust.lang c).langItem (history cs).items = false)
    (hb' : losesSpace (Rust.lang c).langItem (history (cs ++ ds)).items = false)
    (hp : ∀ i ∈ inserted (cs ++ ds), RustFile.Proper i) :
    ∃ us us' : List RustFile.Use,
      toFileVec (Rust.lang c) cfg (Rust.file c (history cs)) =
        (toVec (Rust.lang c) cfg (history cs).items).map (fileLines (us.map RustFile.Use.text)) ∧
      toFileVec (Rust.lang c) cfg (Rust.file c (history (cs ++ ds))) =
        (toVec (Rust.lang c) cfg (history (cs ++ ds)).items).map (fileLines (us'.map RustFile.Use.text)) ∧
      ∀ i ∈ inserted cs, (RustFile.Resolves us' ((Rust.lang c).langItem i).flatten (RustFile.target i) ↔
        RustFile.Resolves us ((Rust.lang c).langItem i).flatten (RustFile.target i) ∧
        ∀ j ∈ inserted ds, RustFile.Needs c j → ∀ n f f', RustFile.Claims c i n f → RustFile.Claims c j n f' → f = f') := by
  obtain ⟨us, h1, h2⟩ := C39_exact c cfg cs hb fun i hi => hp i (mem_grown cs ds i hi)
  obtain ⟨us', h1', h2'⟩ := C39_exact c cfg (cs ++ ds) hb' hp
  refine ⟨us, us', h1, h1', fun i hi => ?_⟩
  rw [h2' i (mem_grown cs ds i hi), h2 i hi, grown]
  exact List.forall_mem_append

/-- C108, Python. -/
theorem C108_python (cfg : Config) (cs ds : List (Call Python.Import))
    (hb : losesSpace Python.lang.langItem (history cs).items = false)
    (hb' : losesSpace Python.lang.langItem (history (cs ++ ds)).items = false)
    (hp : ∀ i ∈ inserted (cs ++ ds), PythonFile.Proper i) :
    ∃ ss ss' : List PythonFile.Stmt,
      toFileVec Python.lang cfg (Python.file (history cs)) =
        (toVec Python.lang cfg (history cs).items).map (fileLines (ss.map PythonFile.Stmt.text)) ∧
      toFileVec Python.lang cfg (Python.file (history (cs ++ ds))) =
        (toVec Python.lang cfg (history (cs ++ ds)).items).map (fileLines (ss'.map PythonFile.Stmt.text)) ∧
      ∀ i ∈ inserted cs,
        (PythonFile.Resolves ss' (Python.lang.langItem i).flatten (PythonFile.moduleOf i) (PythonFile.target i) ↔
        PythonFile.Resolves ss (Python.lang.langItem i).flatten (PythonFile.moduleOf i) (PythonFile.target i) ∧
        ∀ j ∈ inserted ds, ∀ n f f', PythonFile.Claims i n f → PythonFile.Claims j n f' → f = f') := by
  obtain ⟨ss, h1, h2⟩ := C45_python_partial cfg cs hb fun i hi => hp i (mem_grown cs ds i hi)
  obtain ⟨ss', h1', h2'⟩ := C45_python_partial cfg (cs ++ ds) hb' hp
  refine ⟨ss, ss', h1, h1', fun i hi => ?_⟩
  rw [h2' i (mem_grown cs ds i hi), h2 i hi, grown, List.forall_mem_append, and_assoc]

/-- C108, Nix. Arguments, scopes, inherited names and variables stay, in their order. -/
theorem C108_nix (cfg : Config) (isScoped : Bool) (cs ds : List (Call Nix.Import))
    (hb : losesSpace Nix.lang.langItem (history cs).items = false)
    (hb' : losesSpace Nix.lang.langItem (history (cs ++ ds)).items = false)
    (hv : NixFile.Exprs cfg (inserted (cs ++ ds))) :
    ∃ d d' : NixFile.Decls, (d.args.getD []).Sublist (d'.args.getD []) ∧ d.args.isSome = d'.args.isSome ∧
      d.withs.Sublist d'.withs ∧ d.lets.Sublist d'.lets ∧
      toFileVec Nix.lang cfg (Nix.file isScoped (history cs)) =
        (toVec Nix.lang cfg (history cs).items).map (fileLines (NixFile.Decls.lines cfg d)) ∧
      toFileVec Nix.lang cfg (Nix.file isScoped (history (cs ++ ds))) =
        (toVec Nix.lang cfg (history (cs ++ ds)).items).map (fileLines (NixFile.Decls.lines cfg d')) := by
  obtain ⟨as, ws, ins, vs, h1, ha, ham, hws, hwm, hi, him, hvs, hvm⟩ :=
    C48_header cfg isScoped cs hb fun n v h => hv n v (mem_grown cs ds _ h)
  obtain ⟨as', ws', ins', vs', h1', ha', ham', hws', hwm', hi', him', hvs', hvm'⟩ :=
    C48_header cfg isScoped (cs ++ ds) hb' hv
  have seen : ∀ i, Seen cs i → Seen (cs ++ ds) i := by
    rintro i (h | ⟨⟨n, v, h, ho⟩, hk⟩)
    · exact .inl (mem_grown cs ds i h)
    · exact .inr ⟨⟨n, v, mem_grown cs ds _ h, ho⟩, hk⟩
  have s1 : as.Sublist as' := sorted_sublist ha ha' fun a h => by
    obtain ⟨i, h, hn⟩ := (ham a).1 h
    exact (ham' a).2 ⟨i, seen i h, hn⟩
  refine ⟨_, _, ?_, ?_, ?_, ?_, h1, h1'⟩
  · cases isScoped
    · exact s1
    · exact List.Sublist.refl _
  · cases isScoped <;> rfl
  · exact List.Sublist.map _ (sorted_sublist hws hws' fun p h => by
      obtain ⟨n, h⟩ := (hwm p).1 h
      exact (hwm' p).2 ⟨n, mem_grown cs ds _ h⟩)
  · refine List.Sublist.append (List.Sublist.map _ (sorted_sublist hi hi' ?_)) (List.Sublist.map _ (sorted_sublist hvs hvs' ?_))
    · rintro ⟨p, n⟩ h
      exact (him' p n).2 (seen _ ((him p n).1 h))
    · rintro ⟨n, v⟩ h
      exact (hvm' n v).2 (mem_grown cs ds _ ((hvm n v).1 h))

/-! ## Examples -/

def grownGo : List (Call Go.Import) := [.appendLang ⟨.static "b/c".toList, .static "X".toList⟩]

def grownGo' : List (Call Go.Import) := [.space, .appendLang ⟨.static "a".toList, .static "Y".toList⟩, .push,
  .appendLang ⟨.static "d".toList, .static "Z".toList⟩]

example : toFileVec Go.lang ⟨.tab, ['\n']⟩ (Go.file none (history grownGo)) =
      some ["import \"b/c\"".toList, [], "c.X".toList] ∧
    toFileVec Go.lang ⟨.tab, ['\n']⟩ (Go.file none (history (grownGo ++ grownGo'))) =
      some ["import \"a\"".toList, "import \"b/c\"".toList, "import \"d\"".toList, [], "c.X a.Y".toList, "d.Z".toList] ∧
    losesSpace Go.lang.langItem (history grownGo).items = false ∧
    losesSpace Go.lang.langItem (history (grownGo ++ grownGo')).items = false ∧
    marks (history grownGo).items = some [[⟨false, false⟩]] := by
  refine ⟨?_, ?_, ?_, ?_, ?_⟩ <;> decide +kernel

/-- Another name of the default export is added, and does not count. -/
example : let i : Js.Import := ⟨.default, .global (.static "m".toList), .static "b".toList, none⟩
    let j : Js.Import := ⟨.default, .global (.static "m".toList), .static "a".toList, none⟩
    toFileVec Js.lang ⟨.space 2, ['\n']⟩ (Js.file demoRel (history [.appendLang i])) =
      some ["import b from \"m\";".toList, [], "b".toList] ∧
    toFileVec Js.lang ⟨.space 2, ['\n']⟩ (Js.file demoRel (history [.appendLang i, .space, .appendLang j])) =
      some ["import b from \"m\";".toList, [], "b a".toList] := by
  refine ⟨?_, ?_⟩ <;> decide +kernel

/-- Another path for a name is added: the reference does not resolve any more. -/
theorem C108_rust_witness : let i := Rust.import_ (.static "std::fmt".toList) (.static "Error".toList)
    let j := Rust.import_ (.static "std::io".toList) (.static "Error".toList)
    toFileVec (Rust.lang .direct) ⟨.space 4, ['\n']⟩ (Rust.file .direct (history [.appendLang i])) =
      some ["use std::fmt::Error;".toList, [], "Error".toList] ∧
    toFileVec (Rust.lang .direct) ⟨.space 4, ['\n']⟩ (Rust.file .direct (history [.appendLang i, .space, .appendLang j])) =
      some ["use std::fmt::Error;".toList, "use std::io::Error;".toList, [], "Error Error".toList] ∧
    RustFile.Needs .direct j ∧ RustFile.Claims .direct i "Error".toList "std::fmt::Error".toList ∧
    RustFile.Claims .direct j "Error".toList "std::io::Error".toList := by
  refine ⟨by decide +kernel, by decide +kernel, fun m h => ?_, ⟨rfl, rfl⟩, rfl, rfl⟩
  cases h

end Genco.Props
