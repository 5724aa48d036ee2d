import Verif.Spec.Builders
import Verif.Props.Nix
import Verif.Props.Rust
import Verif.Props.Values

/-!
# Properties of the functions and methods that make imports (C72)
-/

set_option autoImplicit false

namespace Genco.Props

open Genco Spec Spec.Builders Tokens

variable {ι : Type}

theorem vec_texts (cfg : Config) (ts : List Str) (st : LSt) (v : VecState)
    (hl : st.line = .initial ∨ st.line = .none) (hp : flushPad cfg st = []) :
    vecActs cfg st v (ts.map .text) = { v with lineBuffer := v.lineBuffer ++ ts.flatten } := by
  induction ts generalizing st v with
  | nil => simp [vecActs]
  | cons t ts ih =>
    rw [List.map_cons, vecActs]
    by_cases ht : t = []
    · subst ht
      have e1 : vecAct cfg st v (.text []) = v := by simp [vecAct]
      have e2 : actSt st (.text []) = st := by simp [actSt]
      rw [e1, e2, ih st v hl hp]
      simp
    · have e1 : vecAct cfg st v (.text t) = { v with lineBuffer := v.lineBuffer ++ t } := by
        rcases hl with h | h <;> simp [vecAct, ht, h, hp]
      have e2 : actSt st (.text t) = st.flushed := by simp [actSt, ht]
      rw [e1, e2, ih _ _ (.inr rfl) (by simp [flushPad, LSt.flushed])]
      simp

/-- A stream of one import is one line. -/
theorem toVec_one (L : Lang ι) (cfg : Config) (i : ι) :
    toVec L cfg (history [.appendLang i]).items = some [(L.langItem i).flatten] := by
  have h : resolveItems L cfg (history [.appendLang i]).items = ((L.langItem i).map .text, some ()) := by
    have := resolveItems_code L cfg (.item (.lang 0 i) .nil) rfl
    rw [show (history [.appendLang i]).items = (Code.item (Item.lang 0 i) .nil).items from rfl, this]
    simp [Code.acts, plainActs, texts]
  have z : marginText cfg 0 = [] := by unfold marginText; cases cfg.indentation <;> simp
  rw [toVec_eq, h, vec_texts cfg _ _ _ (.inl rfl) (by simpa [flushPad, LSt.new] using z)]
  simp [VecState.intoVec, VecState.new]

theorem leads_one (f : ι → List Str) (i : ι) : losesSpace f (history [.appendLang i]).items = false := by
  show losesSpace f [Item.lang _ i] = false
  simp [losesSpace]

theorem walk_one (i : ι) : (history [.appendLang i]).walkImports = [i] := by
  rw [C03_walk_imports]; rfl

theorem lastSome_snoc {α β : Type} (f : α → Option β) (l : List α) (x : α) :
    lastSome f (l ++ [x]) = (f x).or (lastSome f l) := by
  unfold lastSome
  rw [List.filterMap_append]
  cases h : f x <;> simp [h]

/-! ## Rust -/

theorem rust_build (m n : ItemStr) (steps : List Rust.Step) :
    Rust.build m n steps = ⟨match steps.filterMap Builders.Rust.moduleAlias? with
      | a :: _ => .aliased m a
      | [] => .module (lastSome Builders.Rust.mode? steps) m, n, lastSome Builders.Rust.alias? steps⟩ := by
  induction steps using List.reverseRecOn with
  | nil => rfl
  | append_singleton steps s ih =>
    rw [Rust.build, List.foldl_append, ← Rust.build, ih]
    simp only [lastSome_snoc, List.filterMap_append]
    cases steps.filterMap Builders.Rust.moduleAlias? <;> cases s <;> rfl

/-- C72 for Rust. A file with one import, made by `import` and any calls of methods, has
exactly the declaration and the text that `Written` reads off from the calls. -/
theorem C72_rust (c : Rust.Mode) (cfg : Config) (m n : ItemStr) (steps : List Rust.Step)
    (us : List RustFile.Use) (s : Str) (h : Builders.Rust.Written c m n steps us s) :
    toFileVec (Rust.lang c) cfg (Rust.file c (history [.appendLang (Rust.build m n steps)])) =
      some (fileLines (us.map RustFile.Use.text) [s]) := by
  rw [Rust.file_eq c cfg _ (leads_one _ _), walk_one, toVec_one, rust_build]
  have key : ∀ i : Rust.Import, Rust.uses (Rust.modules c [i]) = us → (i.format c).flatten = s →
      (some [((Rust.lang c).langItem i).flatten]).map
        (fileLines ((Rust.uses (Rust.modules c [i])).map RustFile.Use.text)) =
      some (fileLines (us.map RustFile.Use.text) [s]) := by
    intro i h1 h2
    rw [h1, Option.map_some]
    show some (fileLines _ [(i.format c).flatten]) = _
    rw [h2]
  apply key
  · cases h with
    | moduleAlias a r h =>
      rw [h]
      simp [Rust.modules, Rust.addImport, Rust.addAlias, mapModify, mapInsert, mapGet, Rust.uses, Rust.Entry.iter,
        Rust.Entry.default, Rust.useOf, setInsert]
    | direct h hm hn =>
      rw [h, hn]
      generalize lastSome Builders.Rust.mode? steps = o at hm
      rcases o with _ | _ | _ <;> cases c <;> simp at hm
      all_goals simp [Rust.modules, Rust.addImport, Rust.addName, mapModify, Rust.uses, Rust.Entry.iter,
        Rust.Entry.default, Rust.useOf, setInsert]
    | aliased a h hm hn =>
      rw [h, hn]
      generalize lastSome Builders.Rust.mode? steps = o at hm
      rcases o with _ | _ | _ <;> cases c <;> simp at hm
      all_goals simp [Rust.modules, Rust.addImport, Rust.addName, mapModify, Rust.uses, Rust.Entry.iter,
        Rust.Entry.default, Rust.useOf, setInsert]
    | qualified s p h hm hs hp =>
      rw [h]
      generalize lastSome Builders.Rust.mode? steps = o at hm
      have e : hasSep2 m.text = true := (Rust.hasSep2_iff _).2 ⟨p, s, hp⟩
      rcases o with _ | _ | _ <;> cases c <;> simp at hm
      all_goals simp [Rust.modules, Rust.addImport, Rust.addSelf, mapModify, Rust.uses, Rust.Entry.iter,
        Rust.Entry.default, Rust.useOf, e]
    | crate h hm hs =>
      rw [h]
      generalize lastSome Builders.Rust.mode? steps = o at hm
      have e : hasSep2 m.text = false := by
        cases h' : hasSep2 m.text with
        | false => rfl
        | true =>
          obtain ⟨q, s, hq⟩ := (Rust.hasSep2_iff _).1 h'
          rw [hq] at hs
          exact absurd (by simp : ':' ∈ q ++ "::".toList ++ s) hs
      rcases o with _ | _ | _ <;> cases c <;> simp at hm
      all_goals simp [Rust.modules, Rust.addImport, Rust.addSelf, mapModify, Rust.uses, Rust.Entry.iter,
        Rust.Entry.default, e]
  · cases h with
    | moduleAlias a r h =>
      rw [h]
      simp [Rust.Import.format]
    | direct h hm hn =>
      rw [h, hn]
      generalize lastSome Builders.Rust.mode? steps = o at hm
      rcases o with _ | _ | _ <;> cases c <;> simp at hm
      all_goals simp [Rust.Import.format, Rust.Import.writeDirect]
    | aliased a h hm hn =>
      rw [h, hn]
      generalize lastSome Builders.Rust.mode? steps = o at hm
      rcases o with _ | _ | _ <;> cases c <;> simp at hm
      all_goals simp [Rust.Import.format, Rust.Import.writeDirect]
    | qualified s p h hm hs hp =>
      rw [h]
      generalize lastSome Builders.Rust.mode? steps = o at hm
      have e : lastSeg2 m.text = s := Rust.lastSeg2_of ⟨hs, .inr ⟨p, hp⟩⟩
      rcases o with _ | _ | _ <;> cases c <;> simp at hm
      all_goals simp [Rust.Import.format, Rust.Import.writePrefixed, e]
    | crate h hm hs =>
      rw [h]
      generalize lastSome Builders.Rust.mode? steps = o at hm
      have e : lastSeg2 m.text = m.text := Rust.lastSeg2_of ⟨hs, .inl rfl⟩
      rcases o with _ | _ | _ <;> cases c <;> simp at hm
      all_goals simp [Rust.Import.format, Rust.Import.writePrefixed, e]

example : Builders.Rust.Written .qualified (.static "std::fmt".toList) (.static "Debug".toList)
    [.withAlias (.static "A".toList), .qualified, .withAlias (.static "B".toList)]
    [.single "std::fmt::Debug".toList (some "B".toList)] "B".toList :=
  .aliased (.static "B".toList) rfl rfl rfl

example : Builders.Rust.Written .direct (.static "std::fmt".toList) (.static "Debug".toList)
    [.withAlias (.static "A".toList), .qualified] [.single "std::fmt".toList none] "fmt::Debug".toList :=
  .qualified "fmt".toList "std".toList rfl rfl (by decide) (by decide)

example : toFileVec (Rust.lang .direct) ⟨.space 4, ['\n']⟩ (Rust.file .direct (history [.appendLang
    (Rust.build (.static "std::fmt".toList) (.static "Debug".toList)
      [.withModuleAlias (.static "f".toList), .withAlias (.static "A".toList), .qualified,
        .withModuleAlias (.static "g".toList)])])) =
    some ["use std::fmt as f;".toList, [], "f::Debug".toList] :=
  C72_rust _ _ _ _ _ _ _ (.moduleAlias (.static "f".toList) [.static "g".toList] rfl)

/-! ## JavaScript -/

theorem js_build (m : Js.Mod) (n : ItemStr) (steps : List Js.Step) :
    Js.build m n steps = match steps.getLast? with
      | none => ⟨.named, m, n, none⟩
      | some (.withAlias a) => ⟨.named, m, n, some a⟩
      | some .intoDefault => ⟨.default, m, n, none⟩
      | some .intoWildcard => ⟨.wildcard, m, n, none⟩ := by
  have hm : ∀ steps, (Js.build m n steps).module = m ∧ (Js.build m n steps).name = n := by
    intro steps
    induction steps using List.reverseRecOn with
    | nil => exact ⟨rfl, rfl⟩
    | append_singleton steps s ih =>
      rw [Js.build, List.foldl_append, ← Js.build]
      cases s <;> exact ih
  induction steps using List.reverseRecOn with
  | nil => rfl
  | append_singleton steps s _ =>
    obtain ⟨h1, h2⟩ := hm steps
    rw [Js.build, List.foldl_append, ← Js.build]
    generalize Js.build m n steps = i at h1 h2
    subst h1 h2
    cases s <;> simp [Js.Step.apply, Js.Import.withAlias, Js.Import.intoDefault, Js.Import.intoWildcard]

/-- C72 for JavaScript: of the calls `with_alias`, `into_default` and `into_wildcard` only
the last one counts. -/
theorem C72_js (rel : List Js.Component → Str) (cfg : Config) (m : Js.Mod) (n : ItemStr) (steps : List Js.Step) :
    toFileVec Js.lang cfg (Js.file rel (history [.appendLang (Js.build m n steps)])) =
      some (fileLines [(Builders.Js.written (JsFile.source rel m) n steps).1.text]
        [(Builders.Js.written (JsFile.source rel m) n steps).2]) := by
  rw [Js.file_eq rel cfg _ (leads_one _ _), walk_one, toVec_one, js_build, Option.map_some]
  show some (fileLines _ [(Js.Import.format _).flatten]) = _
  unfold Builders.Js.written
  cases steps.getLast? with
  | none => simp [Js.decls, Js.sets, Js.addImport, mapModify, setInsert, Js.modDecl, Js.Import.format, Js.el']
  | some s =>
    cases s <;> simp [Js.decls, Js.sets, Js.addImport, mapModify, setInsert, Js.modDecl, Js.wildDecl,
      Js.Import.format, Js.el']

/-- C72 for JavaScript: a module given as text is named by the text, however the text is given and
whatever paths are relative to. -/
theorem C72_js_text (rel : List Js.Component → Str) (cfg : Config) (m : Js.Mod) (s : ItemStr) (n : ItemStr)
    (steps : List Js.Step) (hm : m = .fromStr s.text ∨ m = .fromString s.text ∨ m = .fromItemStr s) :
    toFileVec Js.lang cfg (Js.file rel (history [.appendLang (Js.build m n steps)])) =
      some (fileLines [(Builders.Js.written s.text n steps).1.text] [(Builders.Js.written s.text n steps).2]) := by
  rw [C72_js]
  rcases hm with rfl | rfl | rfl <;> rfl

example : toFileVec Js.lang ⟨.space 4, ['\n']⟩ (Js.file (fun _ => []) (history [.appendLang
    (Js.build (.fromStr "m".toList) (.static "n".toList) [.intoWildcard, .withAlias (.static "a".toList), .intoDefault])])) =
    some ["import n from \"m\";".toList, [], "n".toList] := by
  rw [C72_js]; decide +kernel

/-- C72 for JavaScript: a module given by `&str` and the same module given by `String` are
one module. Using both gives one declaration. -/
theorem C72_js_one (rel : List Js.Component → Str) (s : Str) (n : ItemStr) (steps : List Js.Step) :
    (Js.file rel (history [.appendLang (Js.build (.fromStr s) n steps), .space,
        .appendLang (Js.build (.fromString s) n steps)])).head? =
      (Js.file rel (history [.appendLang (Js.build (.fromStr s) n steps)])).head? := by
  refine C49_js rel _ _ (fun i => ?_) ?_
  · have : Js.build (.fromString s) n steps = Js.build (.fromStr s) n steps := rfl
    simp [inserted, callItems, langOf, this]
    exact Eq.symm
  · have : Js.build (.fromString s) n steps = Js.build (.fromStr s) n steps := rfl
    intro i hi j hj _ _ _
    have one : ∀ k ∈ inserted [.appendLang (Js.build (.fromStr s) n steps), .space,
        .appendLang (Js.build (.fromString s) n steps)], Js.build (.fromStr s) n steps = k := by
      intro k hk
      simpa [inserted, callItems, langOf, this, eq_comm] using hk
    rw [← one i hi, ← one j hj]

/-- C72 for JavaScript: an `ItemStr` is kept as it is. Two imports made from different ones are different, also
where their texts are the same, and only a boxed one makes the import that the text makes. -/
theorem C72_js_kept (a b : ItemStr) (s : Str) (n : ItemStr) (steps : List Js.Step) :
    (Js.build (.fromItemStr a) n steps = Js.build (.fromItemStr b) n steps ↔ a = b) ∧
    (Js.build (.fromStr s) n steps = Js.build (.fromItemStr a) n steps ↔ a = .box s) := by
  have key : ∀ x y : Js.Mod, Js.build x n steps = Js.build y n steps ↔ x = y := by
    intro x y
    refine ⟨fun h => ?_, fun h => h ▸ rfl⟩
    have h := congrArg Js.Import.module h
    rw [js_build, js_build] at h
    revert h
    split <;> exact id
  rw [key, key]
  refine ⟨⟨fun h => ?_, fun h => h ▸ rfl⟩, fun h => ?_, fun h => h ▸ rfl⟩
  · exact Js.Mod.global.inj h
  · exact (Js.Mod.global.inj h).symm

/- Given by an `ItemStr` with a static text it is another one. -/
example : Js.build (.fromStr "m".toList) (.static "n".toList) [.intoDefault] ≠
    Js.build (.fromItemStr (.static "m".toList)) (.static "n".toList) [.intoDefault] :=
  fun h => by cases (C72_js_kept _ (.box []) _ _ _).2.1 h

example : toFileVec Js.lang ⟨.space 4, ['\n']⟩ (Js.file (fun _ => []) (history
    [.appendLang (Js.build (.fromStr "m".toList) (.static "n".toList) []), .space,
     .appendLang (Js.build (.fromString "m".toList) (.static "n".toList) []), .space,
     .appendLang (Js.build (.fromItemStr (.static "m".toList)) (.static "n".toList) [])])) =
    some ["import {n} from \"m\";".toList, "import {n} from \"m\";".toList, [], "n n n".toList] := by
  decide +kernel

/-! ## Python -/

theorem python_build (m n : ItemStr) (steps : List Python.Step) :
    Python.build m n steps = .object
      (if steps.any Builders.Python.qualifies then .qualified m (lastSome Builders.Python.moduleAlias? steps)
        else .unqualified m) n (lastSome Builders.Python.alias? steps) ∧
    (steps.any Builders.Python.qualifies = false → lastSome Builders.Python.moduleAlias? steps = none) := by
  induction steps using List.reverseRecOn with
  | nil => exact ⟨rfl, fun _ => rfl⟩
  | append_singleton steps s ih =>
    obtain ⟨ih, ih'⟩ := ih
    rw [Python.build, List.foldl_append, ← Python.build, ih]
    simp only [lastSome_snoc, List.any_append, List.any_cons, List.any_nil, Bool.or_false]
    by_cases h : steps.any Builders.Python.qualifies = true
    · cases s <;> simp [h, Builders.Python.qualifies, Builders.Python.alias?, Builders.Python.moduleAlias?,
        Python.Step.apply, Python.Import.withAlias, Python.Import.qualified, Python.Import.withModuleAlias,
        Python.Mod.toQualified, Python.Mod.withAlias]
    · have h' := ih' (by simpa using h)
      cases s <;> simp [h, h', Builders.Python.qualifies, Builders.Python.alias?, Builders.Python.moduleAlias?,
        Python.Step.apply, Python.Import.withAlias, Python.Import.qualified, Python.Import.withModuleAlias,
        Python.Mod.toQualified, Python.Mod.withAlias]

/-- C72 for Python: the last aliases count, `with_module_alias` implies `qualified`, and the
alias of a qualified name is written behind the module (which is wrong, see
`C45_alias_witness`). -/
theorem C72_python (cfg : Config) (m n : ItemStr) (steps : List Python.Step)
    (hp : PythonFile.Proper (Python.build m n steps)) :
    toFileVec Python.lang cfg (Python.file (history [.appendLang (Python.build m n steps)])) =
      some (fileLines [(Builders.Python.written m n steps).1.text] [(Builders.Python.written m n steps).2]) := by
  rw [Python.file_lines cfg _ (leads_one _ _), walk_one, Python.lines_text _ (by simpa using hp), toVec_one,
    Option.map_some, (python_build m n steps).1]
  have hl : ∀ i, Python.lang.langItem i = i.format := fun _ => rfl
  rw [hl]
  unfold Builders.Python.written
  split <;> rename_i h
  · simp [Python.stmts, Python.sets, Python.addImport, setInsert, Python.Import.format]
  · simp [Python.stmts, Python.sets, Python.addImport, mapModify, setInsert, Python.Import.format, Python.name']

/-- C72 for Python modules: the last alias counts. -/
theorem C72_python_module (cfg : Config) (m : ItemStr) (as : List ItemStr)
    (hp : PythonFile.Proper (Python.buildModule m as)) :
    toFileVec Python.lang cfg (Python.file (history [.appendLang (Python.buildModule m as)])) =
      some (fileLines [(PythonFile.Stmt.import_ m.text (as.getLast?.map ItemStr.text)).text]
        [(as.getLast?.getD m).text]) := by
  have hb : Python.buildModule m as = .module m as.getLast? := by
    induction as using List.reverseRecOn with
    | nil => rfl
    | append_singleton as a _ =>
      have : ∀ as : List ItemStr, ∃ o, Python.buildModule m as = .module m o := by
        intro as
        induction as using List.reverseRecOn with
        | nil => exact ⟨_, rfl⟩
        | append_singleton as a ih =>
          obtain ⟨o, ih⟩ := ih
          rw [Python.buildModule, List.foldl_append, ← Python.buildModule, ih]
          exact ⟨_, rfl⟩
      obtain ⟨o, h⟩ := this as
      rw [Python.buildModule, List.foldl_append, ← Python.buildModule, h]
      simp [Python.Import.withAlias]
  rw [Python.file_lines cfg _ (leads_one _ _), walk_one, Python.lines_text _ (by simpa using hp), toVec_one,
    Option.map_some, hb]
  have hl : ∀ i, Python.lang.langItem i = i.format := fun _ => rfl
  rw [hl]
  simp [Python.stmts, Python.sets, Python.addImport, setInsert, Python.Import.format]

theorem python_sample : PythonFile.Proper (Python.build (.static "a.b".toList) (.static "n".toList)
    [.withAlias (.static "x".toList), .withModuleAlias (.static "m".toList), .qualified]) := by
  constructor
  · decide
  · intro x hx
    simp [Python.build, Python.Step.apply, Python.import_, Python.Import.withAlias, Python.Import.withModuleAlias,
      Python.Import.qualified, Python.Mod.withAlias, Python.Mod.toQualified, PythonFile.names] at hx
    rcases hx with rfl | rfl | rfl <;> decide

example : toFileVec Python.lang ⟨.space 4, ['\n']⟩ (Python.file (history [.appendLang
    (Python.build (.static "a.b".toList) (.static "n".toList)
      [.withAlias (.static "x".toList), .withModuleAlias (.static "m".toList), .qualified])])) =
    some ["import a.b as m".toList, [], "m.x".toList] := by
  rw [C72_python _ _ _ _ python_sample]; decide +kernel

/-! ## C# -/

/-- C72 for C#: asking for the full name leaves the `using` line. -/
theorem C72_csharp (cfg : Config) (ns n : ItemStr) (k : Nat) :
    toFileVec (Csharp.lang none (history [.appendLang (Csharp.build ns n k)])) cfg
        (Csharp.file none (history [.appendLang (Csharp.build ns n k)])) =
      some (fileLines [CsharpFile.usingLine ns.text] [if k = 0 then n.text else ns.text ++ '.' :: n.text]) := by
  have hb : Csharp.build ns n k = ⟨ns, n, k != 0⟩ := by
    induction k with
    | zero => rfl
    | succ k ih => rw [Csharp.build, ih]; rfl
  rw [hb]
  have hw := walk_one (⟨ns, n, k != 0⟩ : Csharp.Import)
  have hr : Csharp.resolved none [⟨ns, n, k != 0⟩] = ⟨[(n.text, ns.text)], [ns.text], [Csharp.lineBits ns.text]⟩ := by
    simp [Csharp.resolved, Csharp.addImport, setOf, setInsert, mapGet, mapInsert, mapModify, Csharp.lineBits]
  have h := Csharp.header_file none cfg (history [.appendLang (⟨ns, n, k != 0⟩ : Csharp.Import)]) (us := [ns.text])
    (by rw [hw, hr]; rfl) (history [.appendLang (⟨ns, n, k != 0⟩ : Csharp.Import)]).items (leads_one _ _)
  rw [toVec_one] at h
  refine h.trans ?_
  have hl : (Csharp.lang none (history [.appendLang (⟨ns, n, k != 0⟩ : Csharp.Import)])).langItem ⟨ns, n, k != 0⟩ =
      Csharp.Import.format none (Csharp.resolved none [⟨ns, n, k != 0⟩]).names ⟨ns, n, k != 0⟩ := by
    rw [← hw]; rfl
  rw [hl, hr, Option.map_some]
  by_cases hk : k = 0
  · subst hk
    simp [Csharp.Import.format, Csharp.isQualified, mapGet]
  · simp [Csharp.Import.format, hk]

example : toFileVec (Csharp.lang none (history [.appendLang
    (Csharp.build (.static "System".toList) (.static "Guid".toList) 1)])) ⟨.space 4, ['\n']⟩
    (Csharp.file none (history [.appendLang (Csharp.build (.static "System".toList) (.static "Guid".toList) 1)])) =
    some ["using System;".toList, [], "System.Guid".toList] := by
  rw [C72_csharp]; decide +kernel

/-! ## Java -/

/-- C72 for Java: classes of the own package and of `java.lang` are not imported. -/
theorem C72_java (package : Option ItemStr) (cfg : Config) (p n : ItemStr)
    [Decidable (JavaFile.Foreign (package.map ItemStr.text) (p.text, n.text))] :
    toFileVec (Java.lang package (history [.appendLang (Java.import_ p n)])) cfg
        (Java.file package (history [.appendLang (Java.import_ p n)])) =
      some (fileLines (paragraphs [(package.map (fun p => JavaFile.packageLine p.text)).toList,
        if JavaFile.Foreign (package.map ItemStr.text) (p.text, n.text)
          then [JavaFile.importLine p.text n.text] else []]) [n.text]) := by
  have hw := walk_one (Java.import_ p n)
  have hl : (Java.lang package (history [.appendLang (Java.import_ p n)])).langItem (Java.import_ p n) =
      Java.Import.format package (Java.resolved package [Java.import_ p n]).1 (Java.import_ p n) := by
    rw [← hw]; rfl
  split <;> rename_i hf
  · obtain ⟨h1, h2⟩ := hf
    have hr : Java.resolved package [Java.import_ p n] = ([(n.text, p.text)], [Java.lineBits (p, n)]) := by
      have h1' : p.text ≠ Java.javaLangPkg := h1
      simp [Java.resolved, Java.addImport, setOf, setInsert, mapGet, mapInsert, mapModify, Java.lineBits,
        Java.import_, h1', h2]
    rw [Java.file_eq package cfg _ (leads_one _ _) (ims := [(p, n)]) (by rw [hw, hr]; rfl), toVec_one, hl, hr]
    simp [Java.Import.format, Java.import_, mapGet]
  · have hf' : p.text = Java.javaLangPkg ∨ some p.text = package.map ItemStr.text := by
      by_cases h1 : p.text = Java.javaLangPkg
      · exact .inl h1
      · by_cases h2 : some p.text = package.map ItemStr.text
        · exact .inr h2
        · exact absurd ⟨h1, h2⟩ hf
    have hr : Java.resolved package [Java.import_ p n] = ([], []) := by
      rcases hf' with h | h <;>
        simp [Java.resolved, Java.addImport, setOf, setInsert, mapGet, Java.import_, h]
    rw [Java.file_eq package cfg _ (leads_one _ _) (ims := []) (by rw [hw, hr]; rfl), toVec_one, hl, hr]
    rcases hf' with h | h <;> simp [Java.Import.format, Java.import_, h]

/-! ## Go, Swift, Dart, C -/

/-- C72 for Go: a name is written behind the last segment of its module. -/
theorem C72_go (package : Option ItemStr) (cfg : Config) (m n : ItemStr) (s : Str) (hs : LastPart '/' m.text s) :
    toFileVec Go.lang cfg (Go.file package (history [.appendLang (Go.import_ m n)])) =
      some (fileLines (paragraphs [(package.map (fun p => GoFile.packageLine p.text)).toList,
        [GoFile.importLine m.text]]) [s ++ '.' :: n.text]) := by
  rw [Go.file_eq package cfg _ (leads_one _ _), walk_one, toVec_one, Option.map_some]
  have hl : Go.lang.langItem (Go.import_ m n) = (Go.import_ m n).format := rfl
  have e : lastSeg1 '/' m.text = s := lastPart_unique (lastSeg1_spec _ _) hs
  rw [hl]
  simp [Go.keys, setOf, setInsert, Go.import_, Go.Import.format, e]

/-- C72 for Swift. -/
theorem C72_swift (cfg : Config) (m n : ItemStr) :
    toFileVec Swift.lang cfg (Swift.file (history [.appendLang (Swift.import_ m n)])) =
      some (fileLines [SwiftFile.importLine m.text] [n.text]) := by
  rw [Swift.file_eq cfg _ (leads_one _ _), walk_one, toVec_one, Option.map_some]
  have hl : Swift.lang.langItem (Swift.import_ m n) = (Swift.import_ m n).format := rfl
  rw [hl]
  simp [Swift.keys, setOf, setInsert, Swift.import_, Swift.Import.format]

/-- C72 for C: the two kinds of includes. -/
theorem C72_c (cfg : Config) (p n : ItemStr) :
    toFileVec C.lang cfg (C.file (history [.appendLang (C.include_ p n)])) =
      some (fileLines [CFile.includeLine p.text false] [n.text]) ∧
    toFileVec C.lang cfg (C.file (history [.appendLang (C.includeSystem p n)])) =
      some (fileLines [CFile.includeLine p.text true] [n.text]) := by
  have hl : ∀ i, C.lang.langItem i = i.format := fun _ => rfl
  constructor <;> rw [C.file_eq cfg _ (leads_one _ _), walk_one, toVec_one, Option.map_some, hl]
  · simp [C.keys, setOf, setInsert, C.include_, C.Import.format]
  · simp [C.keys, setOf, setInsert, C.includeSystem, C.Import.format]

/-- C72 for Dart: the last alias counts, and the core library is not imported. -/
theorem C72_dart (cfg : Config) (p n : ItemStr) (as : List ItemStr) :
    toFileVec Dart.lang cfg (Dart.file (history [.appendLang (Dart.build p n as)])) =
      some (fileLines (if p.text = DartFile.coreLibrary then []
          else [DartFile.importLine p.text (as.getLast?.map ItemStr.text)])
        [match as.getLast? with
          | some a => a.text ++ '.' :: n.text
          | none => n.text]) := by
  have hb : ∀ (as : List ItemStr) (o : Option ItemStr),
      as.foldl Dart.Import.withAlias ⟨p, n, o⟩ = ⟨p, n, as.getLast?.or o⟩ := by
    intro as
    induction as using List.reverseRecOn with
    | nil => intro o; rfl
    | append_singleton as a ih => intro o; rw [List.foldl_append, ih]; simp [Dart.Import.withAlias]
  have hb' : Dart.build p n as = ⟨p, n, as.getLast?⟩ := by
    rw [Dart.build, Dart.import_, hb]; simp
  have hl : ∀ i, Dart.lang.langItem i = i.format := fun _ => rfl
  rw [hb', Dart.file_eq cfg _ (leads_one _ _), walk_one, toVec_one, Option.map_some, hl]
  have hc : DartFile.coreLibrary = Dart.core := rfl
  rw [hc]
  by_cases h : p.text = Dart.core
  · cases as.getLast? <;> simp [Dart.keys, setOf, Dart.Import.format, h]
  · cases as.getLast? <;> simp [Dart.keys, setOf, setInsert, Dart.Import.format, h]

/-! ## Nix -/

/-- C72 for Nix: each function makes the declaration it is named after. -/
theorem C72_nix (cfg : Config) (p n : ItemStr) (a : Str) (ha : NixFile.StartsAt p.text a) :
    toFileVec Nix.lang cfg (Nix.file false (history [.appendLang (Nix.argument n)])) =
      some (fileLines (NixFile.Decls.lines cfg ⟨some [n.text], [], []⟩) [n.text]) ∧
    toFileVec Nix.lang cfg (Nix.file false (history [.appendLang (Nix.inherit_ p n)])) =
      some (fileLines (NixFile.Decls.lines cfg ⟨some [a], [], [.inherit p.text n.text]⟩) [n.text]) ∧
    toFileVec Nix.lang cfg (Nix.file false (history [.appendLang (Nix.with_ p n)])) =
      some (fileLines (NixFile.Decls.lines cfg ⟨some [a], [p.text], []⟩) [n.text]) := by
  have hl : ∀ i, Nix.lang.langItem i = i.format := fun _ => rfl
  have e := (starts_at _ _).1 ha
  refine ⟨?_, ?_, ?_⟩
  all_goals rw [Nix.file_eq cfg false _ (leads_one _ _) (by rw [walk_one]; intro n v h; simp [Nix.argument, Nix.inherit_, Nix.with_] at h),
    walk_one, toVec_one, Option.map_some, hl]
  all_goals simp [Nix.argument, Nix.inherit_, Nix.with_, Nix.argumentsOf, Nix.withsOf, Nix.inheritsOf, Nix.variablesOf,
    Nix.bindings, setOf, setInsert, Nix.Import.format, e]

/-- C72 for Nix variables without imports in their value. -/
theorem C72_nix_variable (cfg : Config) (n : ItemStr) (v : Tokens Nix.Import) (hn : n.text ≠ [])
    (hv : NixFile.Expr cfg v) (hi : v.walkImports = []) :
    ∃ ls, toVec Nix.lang cfg v.items = some ls ∧
      toFileVec Nix.lang cfg (Nix.file true (history [.appendLang (Nix.variable_ n v)])) =
        some (fileLines (NixFile.Decls.lines cfg ⟨none, [], [.value n.text ls]⟩) [n.text]) := by
  obtain ⟨c, -, -, hc⟩ := Nix.piece_expr hv
  refine ⟨_, hc, ?_⟩
  have hl : ∀ i, Nix.lang.langItem i = i.format := fun _ => rfl
  rw [Nix.file_eq cfg true _ (leads_one _ _) (by
    rw [walk_one]
    intro m w h
    simp only [Nix.variable_, List.mem_singleton, Nix.Import.variable.injEq] at h
    obtain ⟨rfl, rfl⟩ := h
    exact ⟨hn, hv⟩), walk_one, toVec_one, Option.map_some, hl]
  simp [Nix.variable_, Nix.withsOf, Nix.inheritsOf, Nix.variablesOf, Nix.bindings, setOf, setInsert,
    Nix.Import.format, hi, hc]

example : LastPart '/' "a/b".toList "b".toList := ⟨by decide, .inr ⟨"a".toList, rfl⟩⟩

example : toFileVec Dart.lang ⟨.space 4, ['\n']⟩ (Dart.file (history [.appendLang
    (Dart.build (.static "dart:math".toList) (.static "Random".toList) [.static "a".toList, .static "b".toList])])) =
    some ["import \"dart:math\" as b;".toList, [], "b.Random".toList] := by
  rw [C72_dart]; decide +kernel

example : toFileVec Nix.lang ⟨.space 4, ['\n']⟩ (Nix.file false (history [.appendLang
    (Nix.inherit_ (.static "inputs.nixpkgs".toList) (.static "lib".toList))])) =
    some ["{".toList, "    inputs,".toList, "    ...".toList, "}:".toList, [], "let".toList,
      "    inherit (inputs.nixpkgs) lib;".toList, "in".toList, [], "lib".toList] := by
  have h : NixFile.StartsAt "inputs.nixpkgs".toList "inputs".toList := ⟨by decide, .inr ⟨"nixpkgs".toList, rfl⟩⟩
  rw [(C72_nix _ (.static "inputs.nixpkgs".toList) _ _ h).2.1]; decide +kernel

/-- A value: one word. -/
theorem nix_sample : NixFile.Expr ⟨.space 4, ['\n']⟩ (history [.append (.literal (.static "null".toList))]) := by
  refine ⟨⟨_, rfl⟩, ⟨.item (.literal (.static "null".toList)) .nil, rfl, rfl, ?_⟩, ⟨_, _, rfl, rfl⟩,
    ⟨[], .literal (.static "null".toList), rfl, rfl⟩⟩
  have e : seen ((Code.item (.literal (.static "null".toList)) .nil : Code Nix.Import).acts Nix.lang
      ⟨.space 4, ['\n']⟩) = [.text "null".toList] := by decide +kernel
  rw [e]
  refine ⟨⟨_, _, rfl, by decide⟩, ⟨[], _, rfl, by decide⟩, ?_, by decide⟩
  intro p hp
  rw [← List.mem_inits] at hp
  revert p
  decide

example : ∃ ls, toVec Nix.lang ⟨.space 4, ['\n']⟩
      (history [.append (.literal (.static "null".toList))] : Tokens Nix.Import).items = some ls ∧
    toFileVec Nix.lang ⟨.space 4, ['\n']⟩ (Nix.file true (history [.appendLang (Nix.variable_ (.static "x".toList)
        (history [.append (.literal (.static "null".toList))]))])) =
      some (fileLines (NixFile.Decls.lines ⟨.space 4, ['\n']⟩ ⟨none, [], [.value "x".toList ls]⟩) ["x".toList]) :=
  C72_nix_variable _ (.static "x".toList) _ (by decide) nix_sample (by decide)

end Genco.Props
