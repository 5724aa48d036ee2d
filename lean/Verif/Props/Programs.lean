import Verif.Props.Joined
import Verif.Props.Helpers
import Verif.Props.Simple
import Verif.Props.Java
import Verif.Props.Js
import Verif.Props.Python
import Verif.Props.Rust
import Verif.Props.Csharp
import Verif.Props.Nix

/-!
# C112: files of programs

A program of nested blocks (`Program`, C111) as the body of a file: the declarations for the imports of all its parts,
an empty line, and the lines of its parts.
-/

set_option autoImplicit false

namespace Genco.Props

open Genco Spec Tokens

variable {ι : Type}

/-- Lines under a header: an empty line is between them, if there is a header. -/
def under (header body : List Str) : List Str :=
  match header with
  | [] => body
  | l :: r => l :: r ++ [] :: body

/-- The imports of the parts of a program, in order. -/
def Program.imports : Program ι → List ι
  | .leaf cs _ => inserted cs
  | .both a _ b => a.imports ++ b.imports
  | .block a b c => a.imports ++ b.imports ++ c.imports

/-! ## Programs as bodies -/

theorem inserted_app (a b : List (Call ι)) : inserted (a ++ b) = inserted a ++ inserted b := by
  simp [inserted]

theorem inserted_ws (w : List WsCall) : inserted (w.map WsCall.call : List (Call ι)) = [] := by
  induction w with
  | nil => rfl
  | cons c w ih =>
    rw [List.map_cons, ← List.singleton_append, inserted_app, ih]
    cases c <;> rfl

theorem imports_eq (p : Program ι) : inserted p.calls = p.imports := by
  induction p with
  | leaf cs ls => rfl
  | both a w b iha ihb => simp [Program.calls, Program.imports, inserted_app, inserted_ws, iha, ihb]
  | block a b c iha ihb ihc =>
    have e1 : inserted ([.indent] : List (Call ι)) = [] := rfl
    have e2 : inserted ([.unindent] : List (Call ι)) = [] := rfl
    rw [Program.calls, inserted_app, inserted_app, inserted_app, inserted_app, e1, e2, iha, ihb, ihc]
    simp [Program.imports]

/-- Code that begins with text has no space to lose. -/
theorem begins_spaces (L : Lang ι) (l : List (Item ι)) (h : opening L l ≠ []) : losesSpace L.langItem l = false := by
  induction l with
  | nil => rfl
  | cons i l ih =>
    cases i with
    | register a b => exact ih h
    | literal s => simp only [opening] at h; simp [losesSpace, h]
    | lang a i => simp only [opening] at h; simp [losesSpace, h]
    | openQuote e => rfl
    | _ => exact absurd rfl h

theorem begins_firm (L : Lang ι) (l : List (Item ι)) (h : opening L l ≠ []) : startsFirm l := by
  intro i hi
  cases l with
  | nil => cases hi
  | cons x l =>
    cases hi
    cases i <;> first | rfl | exact absurd rfl h

/-- A stream that begins with text can be appended, or its calls can be made in place. -/
theorem stream_in_place (as bs cs : List (Call ι)) (h : startsFirm (bs.flatMap callItems)) :
    history (as ++ [.stream (history bs).items] ++ cs) = history (as ++ bs ++ cs) := by
  have := append_firm as bs (.inr h)
  simp only [history, List.foldl_append] at this ⊢
  rw [← this]
  rfl

theorem own_spaces {L : Lang ι} {k : Int} {cs : List (Call ι)} (h : Own L k cs) :
    losesSpace L.langItem (history cs).items = false :=
  begins_spaces L _ (by rw [history_eq]; exact opening_items L _ h.begins)

/-- Code that begins with text is not an empty line. -/
theorem own_ne {L : Lang ι} {k : Int} {cs : List (Call ι)} (h : Own L k cs) (cfg : Config) :
    toVec L cfg (history cs).items ≠ some [[]] := by
  obtain ⟨l, r, h1, h2⟩ := resolve_opening L cfg (history cs).items (by rw [history_eq]; exact opening_items L _ h.begins)
  rw [toVec_eq]
  cases (resolveItems L cfg (history cs).items).2 with
  | none => simp
  | some u =>
    simp only [Option.map_some, ne_eq, Option.some.injEq]
    refine vecActs_ne cfg _ ?_
    rw [h2, List.any_append, Bool.or_eq_true]
    left
    rw [List.any_eq_true]
    obtain ⟨s, hs, hne⟩ : ∃ s ∈ l, s ≠ [] := by
      by_contra hc
      exact h1 (List.flatten_eq_nil_iff.2 fun s hs => by_contra fun hne => hc ⟨s, hs, hne⟩)
    exact ⟨.text s, List.mem_map.2 ⟨s, hs, rfl⟩, by simpa [visible] using hne⟩

theorem program_under (L : Lang ι) (cfg : Config) (p : Program ι) (hp : p.Ok L cfg) (hd : List Str) :
    (toVec L cfg (history p.calls).items).map (fileLines hd) = some (under hd (p.lines cfg)) := by
  have hne := own_ne (code_own L cfg p hp) cfg
  rw [C111_program L cfg p hp] at hne ⊢
  have hne : p.lines cfg ≠ [[]] := fun e => hne (congrArg some e)
  cases hd <;> simp [fileLines, under, hne]

theorem program_spaces (L : Lang ι) (cfg : Config) (p : Program ι) (hp : p.Ok L cfg) :
    losesSpace L.langItem (history p.calls).items = false := own_spaces (code_own L cfg p hp)

/-- C112. The text of a program are its lines, with the newline of the configuration between them. -/
theorem C112_text (L : Lang ι) (cfg : Config) (p : Program ι) (hp : p.Ok L cfg) :
    toString L cfg (history p.calls).items = some (cfg.newline.intercalate (p.lines cfg)) := by
  rw [C11_string_is_joined_lines, C111_program L cfg p hp]; rfl

/-! ## The languages -/

/-- C112. Go. -/
theorem C112_go (package : Option ItemStr) (cfg : Config) (p : Program Go.Import) (hp : p.Ok Go.lang cfg) :
    ∃ ms : List ItemStr,
      toFileVec Go.lang cfg (Go.file package (history p.calls)) =
        some (under (paragraphs [(package.map (fun p => GoFile.packageLine p.text)).toList,
          ms.map (fun m => GoFile.importLine m.text)]) (p.lines cfg)) ∧
      Sorted ms ∧ ∀ m, m ∈ ms ↔ ∃ i ∈ p.imports, i.module = m := by
  obtain ⟨ms, h1, h2⟩ := C44_go package cfg p.calls (program_spaces _ cfg p hp)
  rw [program_under _ cfg p hp, imports_eq] at *
  exact ⟨ms, h1, h2⟩

/-- C112. C. -/
theorem C112_c (cfg : Config) (p : Program C.Import) (hp : p.Ok C.lang cfg) :
    ∃ ms : List (ItemStr × Bool),
      toFileVec C.lang cfg (C.file (history p.calls)) =
        some (under (ms.map (fun m => CFile.includeLine m.1.text m.2)) (p.lines cfg)) ∧
      Sorted ms ∧ ∀ m, m ∈ ms ↔ ∃ i ∈ p.imports, (i.path, i.system) = m := by
  obtain ⟨ms, h1, h2⟩ := C47_c cfg p.calls (program_spaces _ cfg p hp)
  rw [program_under _ cfg p hp, imports_eq] at *
  exact ⟨ms, h1, h2⟩

/-- C112. Swift. -/
theorem C112_swift (cfg : Config) (p : Program Swift.Import) (hp : p.Ok Swift.lang cfg) :
    ∃ ms : List ItemStr,
      toFileVec Swift.lang cfg (Swift.file (history p.calls)) =
        some (under (ms.map (fun m => SwiftFile.importLine m.text)) (p.lines cfg)) ∧
      Sorted ms ∧ ∀ m, m ∈ ms ↔ ∃ i ∈ p.imports, i.module = m := by
  obtain ⟨ms, h1, h2⟩ := C47_swift cfg p.calls (program_spaces _ cfg p hp)
  rw [program_under _ cfg p hp, imports_eq] at *
  exact ⟨ms, h1, h2⟩

/-- C112. Dart. -/
theorem C112_dart (cfg : Config) (p : Program Dart.Import) (hp : p.Ok Dart.lang cfg) :
    ∃ ms : List (ItemStr × Option ItemStr),
      toFileVec Dart.lang cfg (Dart.file (history p.calls)) =
        some (under (ms.map (fun m => DartFile.importLine m.1.text (m.2.map ItemStr.text))) (p.lines cfg)) ∧
      Sorted ms ∧ ∀ m, m ∈ ms ↔ ∃ i ∈ p.imports, i.path.text ≠ DartFile.coreLibrary ∧ (i.path, i.alias) = m := by
  obtain ⟨ms, h1, h2⟩ := C46_dart cfg p.calls (program_spaces _ cfg p hp)
  rw [program_under _ cfg p hp, imports_eq] at *
  exact ⟨ms, h1, h2⟩

/-- C112. Python: what each reference of a part means in the file of the whole. -/
theorem C112_python (cfg : Config) (p : Program Python.Import) (hp : p.Ok Python.lang cfg)
    (hi : ∀ i ∈ p.imports, PythonFile.Proper i) :
    ∃ ss : List PythonFile.Stmt,
      toFileVec Python.lang cfg (Python.file (history p.calls)) =
        some (under (ss.map PythonFile.Stmt.text) (p.lines cfg)) ∧
      ∀ i ∈ p.imports,
        (PythonFile.Resolves ss (Python.lang.langItem i).flatten (PythonFile.moduleOf i) (PythonFile.target i) ↔
          PythonFile.Usual i ∧ ∀ j ∈ p.imports, ∀ n f f', PythonFile.Claims i n f → PythonFile.Claims j n f' → f = f') := by
  rw [← imports_eq] at hi
  obtain ⟨ss, h1, h2⟩ := C45_python_partial cfg p.calls (program_spaces _ cfg p hp) hi
  rw [program_under _ cfg p hp, imports_eq] at *
  exact ⟨ss, h1, h2⟩

/-- C112. JavaScript: the bindings of the file. -/
theorem C112_js (rel : List Js.Component → Str) (cfg : Config) (p : Program Js.Import) (hp : p.Ok Js.lang cfg) :
    ∃ ds : List JsFile.Decl,
      toFileVec Js.lang cfg (Js.file rel (history p.calls)) =
        some (under (ds.map JsFile.Decl.text) (p.lines cfg)) ∧
      ∀ n v, (n, v) ∈ ds.flatMap JsFile.Decl.bindings ↔
        ∃ i ∈ p.imports, JsFile.Kept p.imports i ∧ n = (Js.lang.langItem i).flatten ∧ v = JsFile.target rel i := by
  obtain ⟨ds, h1, -, h3⟩ := C41_bindings rel cfg p.calls (program_spaces _ cfg p hp)
  rw [program_under _ cfg p hp, imports_eq] at *
  exact ⟨ds, h1, h3⟩

/-- C112. Rust: what each reference of a part means in the file of the whole. -/
theorem C112_rust (c : Rust.Mode) (cfg : Config) (p : Program Rust.Import) (hp : p.Ok (Rust.lang c) cfg)
    (hi : ∀ i ∈ p.imports, RustFile.Proper i) :
    ∃ us : List RustFile.Use,
      toFileVec (Rust.lang c) cfg (Rust.file c (history p.calls)) =
        some (under (us.map RustFile.Use.text) (p.lines cfg)) ∧
      ∀ i ∈ p.imports, (RustFile.Resolves us ((Rust.lang c).langItem i).flatten (RustFile.target i) ↔
        ∀ j ∈ p.imports, RustFile.Needs c j → ∀ n f f', RustFile.Claims c i n f → RustFile.Claims c j n f' → f = f') := by
  rw [← imports_eq] at hi
  obtain ⟨us, h1, h2⟩ := C39_exact c cfg p.calls (program_spaces _ cfg p hp) hi
  rw [program_under _ cfg p hp, imports_eq] at *
  exact ⟨us, h1, h2⟩

/-- C112. Java; references are written as the imports of the whole file have it. -/
theorem C112_java (package : Option ItemStr) (cfg : Config) (p : Program Java.Import)
    (hp : p.Ok (Java.lang package (history p.calls)) cfg) :
    ∃ ims : List (ItemStr × ItemStr),
      toFileVec (Java.lang package (history p.calls)) cfg (Java.file package (history p.calls)) =
        some (under (paragraphs [(package.map (fun p => JavaFile.packageLine p.text)).toList,
          ims.map (fun e => JavaFile.importLine e.1.text e.2.text)]) (p.lines cfg)) ∧
      Sorted ims ∧ (ims.map (·.2.text)).Nodup ∧
      (∀ e ∈ ims, (∃ i ∈ p.imports, (i.package, i.name) = e) ∧
        JavaFile.Foreign (package.map ItemStr.text) (e.1.text, e.2.text)) ∧
      ∀ i ∈ p.imports, JavaFile.Foreign (package.map ItemStr.text) (JavaFile.target i) →
        ∃ e ∈ ims, e.2.text = i.name.text := by
  obtain ⟨ims, h1, h2⟩ := C42_header package cfg p.calls (program_spaces _ cfg p hp)
  rw [program_under _ cfg p hp, imports_eq] at *
  exact ⟨ims, h1, h2⟩

/-- C112. C# without a namespace. -/
theorem C112_csharp (cfg : Config) (p : Program Csharp.Import) (hp : p.Ok (Csharp.lang none (history p.calls)) cfg) :
    ∃ us : List Str,
      toFileVec (Csharp.lang none (history p.calls)) cfg (Csharp.file none (history p.calls)) =
        some (under (us.map CsharpFile.usingLine) (p.lines cfg)) ∧
      Sorted us ∧ ∀ u, u ∈ us ↔ ∃ n, CsharpFile.Chosen none (p.imports.map CsharpFile.target) u n := by
  obtain ⟨us, h1, h2⟩ := C43_header none cfg p.calls (fun _ => program_spaces _ cfg p hp)
  rw [imports_eq] at h2
  exact ⟨us, h1.trans (program_under _ cfg p hp _), h2⟩

/-- The lines of a program in the block of a namespace. -/
theorem namespace_lines (n : ItemStr) (cfg : Config) (p : Program Csharp.Import)
    (hp : p.Ok (Csharp.lang (some n) (history p.calls)) cfg) :
    toVec (Csharp.lang (some n) (history p.calls)) cfg (inNamespace (some n) (history p.calls)) =
      some (CsharpFile.namespaceLine n.text :: (p.lines cfg).map (movedIn cfg 1) ++ ["}".toList]) := by
  have hown := code_own _ cfg p hp
  -- the body is appended as a stream: the calls can be made in place
  have hin : inNamespace (some n) (history p.calls) =
      (history (namespaceOpen n ++ [.indent] ++ p.calls ++ [.unindent] ++
        [.append (.literal (.static "}".toList))])).items := by
    refine congrArg Tokens.items ?_
    have := stream_in_place (namespaceOpen n ++ [.indent]) p.calls
      [.unindent, .append (.literal (.static "}".toList))] (begins_firm _ _ hown.begins)
    simp only [List.append_assoc, List.cons_append, List.nil_append] at this ⊢
    exact this
  have hopen : Own (Csharp.lang (some n) (history p.calls)) (0 : Nat) (namespaceOpen n) := by
    refine ⟨⟨ended [.append (.literal (.static "namespace".toList)), .space, .append (.literal n), .space]
      (.literal (.static "{".toList)) rfl (by show ItemStr.text _ ≠ []; decide), rfl, rfl⟩, by show "namespace".toList ≠ []; decide, ?_⟩
    intro A hA
    have : ∀ B ∈ (history (namespaceOpen n)).items.inits, 0 ≤ height [[⟨false, false⟩]] B := by
      show ∀ B ∈ ([.literal (.static "namespace".toList), .space, .literal n, .space,
        .literal (.static "{".toList)] : List (Item Csharp.Import)).inits, _
      simp [height, markStep, indOf]
    exact this A ((List.mem_inits _ _).2 hA)
  have hclose : Own (Csharp.lang (some n) (history p.calls)) 0 [.append (.literal (.static "}".toList))] := by
    refine ⟨⟨ended [] _ rfl (by show ItemStr.text _ ≠ []; decide), rfl, rfl⟩, by show "}".toList ≠ []; decide, ?_⟩
    intro A hA
    have : ∀ B ∈ ([.literal (.static "}".toList)] : List (Item Csharp.Import)).inits, 0 ≤ height [[⟨false, false⟩]] B := by
      simp [height, markStep, indOf]
    exact this A ((List.mem_inits _ _).2 hA)
  obtain ⟨a, b, c, a1, b1, c1, e⟩ := C111_block _ cfg _ p.calls _ 0 hopen hown hclose
  rw [hin, e]
  rw [C111_program _ cfg p hp] at b1
  cases b1
  have ha : a = [CsharpFile.namespaceLine n.text] := by
    have := namespace_vec (Csharp.lang (some n) (history p.calls)) cfg n
    rw [show (namespaceCode n).items = (history (namespaceOpen n)).items from rfl, a1] at this
    exact Option.some.inj this
  have hcl : c = ["}".toList] := by
    have z : marginText cfg 0 = [] := by unfold marginText; cases cfg.indentation <;> simp
    rw [toVec_eq] at c1
    have e : resolveItems (Csharp.lang (some n) (history p.calls)) cfg
        (history [.append (.literal (.static "}".toList))]).items = ([.text "}".toList], some ()) := rfl
    rw [e] at c1
    simp [vecActs, vecAct, flushPad, LSt.new, VecState.new, VecState.intoVec, z] at c1
    simpa using c1.symm
  have z : marginText cfg 0 = [] := by unfold marginText; cases cfg.indentation <;> simp
  subst ha hcl
  simp [movedIn, z]

/-- C112. C# with a namespace: the lines of the program are one level further in, in the braces of the namespace. -/
theorem C112_csharp_namespace (n : ItemStr) (cfg : Config) (p : Program Csharp.Import)
    (hp : p.Ok (Csharp.lang (some n) (history p.calls)) cfg) :
    ∃ us : List Str,
      toFileVec (Csharp.lang (some n) (history p.calls)) cfg (Csharp.file (some n) (history p.calls)) =
        some (under (us.map CsharpFile.usingLine)
          (CsharpFile.namespaceLine n.text :: (p.lines cfg).map (movedIn cfg 1) ++ ["}".toList])) ∧
      Sorted us ∧ ∀ u, u ∈ us ↔ ∃ m, CsharpFile.Chosen (some n.text) (p.imports.map CsharpFile.target) u m := by
  obtain ⟨us, h1, h2⟩ := C43_header (some n) cfg p.calls (by simp)
  rw [imports_eq] at h2
  refine ⟨us, ?_, h2⟩
  rw [h1, namespace_lines n cfg p hp]
  cases us <;> simp [fileLines, under]

/-- C112. Nix. -/
theorem C112_nix (cfg : Config) (isScoped : Bool) (p : Program Nix.Import) (hp : p.Ok Nix.lang cfg)
    (hv : NixFile.Exprs cfg p.imports) :
    ∃ (as : List Str) (ws : List ItemStr) (ins : List (ItemStr × ItemStr)) (vs : List (ItemStr × Tokens Nix.Import)),
      toFileVec Nix.lang cfg (Nix.file isScoped (history p.calls)) =
        some (under (NixFile.Decls.lines cfg
          ⟨if isScoped then none else some as, ws.map ItemStr.text,
            ins.map (fun e => .inherit e.1.text e.2.text) ++
              vs.map (fun e => .value e.1.text ((toVec Nix.lang cfg e.2.items).getD []))⟩) (p.lines cfg)) ∧
      Sorted as ∧ (∀ a, a ∈ as ↔ ∃ i, Seen p.calls i ∧ NixFile.NeedsArg a i) ∧
      Sorted ws ∧ (∀ q, q ∈ ws ↔ ∃ n, Nix.Import.with q n ∈ p.imports) ∧
      Sorted ins ∧ (∀ q n, (q, n) ∈ ins ↔ Seen p.calls (.inherit q n)) ∧
      Sorted vs ∧ ∀ n v, (n, v) ∈ vs ↔ Nix.Import.variable n v ∈ p.imports := by
  rw [← imports_eq] at hv
  obtain ⟨as, ws, ins, vs, h1, h2⟩ := C48_header cfg isScoped p.calls (program_spaces _ cfg p hp) hv
  rw [program_under _ cfg p hp, imports_eq] at *
  exact ⟨as, ws, ins, vs, h1, h2⟩

/-! ## Examples -/

/-- A Java class in a file: the body of the class has references to two classes of the same name. -/
def javaProgram : Program Java.Import :=
  .block (.leaf [.append (lit "class A {")] ["class A {".toList])
    (.both (.leaf [.appendLang (⟨.static "a.b".toList, .static "X".toList⟩ : Java.Import), .append (lit " x;")]
        ["X x;".toList]) [.line]
      (.leaf [.appendLang (⟨.static "c".toList, .static "X".toList⟩ : Java.Import), .append (lit " y;")]
        ["c.X y;".toList]))
    (.leaf [.append (lit "}")] ["}".toList])

theorem line_own {L : Lang ι} (cs : List (Call ι)) (bs : List (Call ι)) (s : Str) (h : cs = bs ++ [.append (.literal (.static s))])
    (hs : s ≠ []) (hm : marks (history cs).items = some [[⟨false, false⟩]])
    (hh : height [[⟨false, false⟩]] (history cs).items = 0) (ho : opening L (cs.flatMap callItems) ≠ [])
    (hi : ∀ A ∈ (history cs).items.inits, 0 ≤ height [[⟨false, false⟩]] A) : Own L 0 cs :=
  ⟨⟨ended bs _ h hs, hm, hh⟩, ho, fun A hA => hi A ((List.mem_inits _ _).2 hA)⟩

theorem javaProgram_ok : javaProgram.Ok (Java.lang none (history javaProgram.calls)) ⟨.space 4, ['\n']⟩ := by
  refine ⟨⟨line_own _ [] _ rfl (by decide) (by decide) (by decide) (by decide +kernel) (by decide), by decide +kernel⟩,
    ⟨⟨line_own _ [_] _ rfl (by decide) (by decide) (by decide) (by decide +kernel) (by decide), by decide +kernel⟩,
      ⟨line_own _ [_] _ rfl (by decide) (by decide) (by decide) (by decide +kernel) (by decide), by decide +kernel⟩,
      by decide, by decide, by decide⟩,
    ⟨line_own _ [] _ rfl (by decide) (by decide) (by decide) (by decide +kernel) (by decide), by decide +kernel⟩⟩

example : toFileVec (Java.lang none (history javaProgram.calls)) ⟨.space 4, ['\n']⟩
      (Java.file none (history javaProgram.calls)) =
    some ["import a.b.X;".toList, [], "class A {".toList, "    X x;".toList, [], "    c.X y;".toList, "}".toList] := by
  decide +kernel

/-- A function with a reference in it; the line of the reference is `s`. -/
def nested (i : ι) (s : String) : Program ι :=
  .block (.leaf [.append (lit "f {")] ["f {".toList])
    (.leaf [.appendLang i, .append (lit " x")] [s.toList])
    (.leaf [.append (lit "}")] ["}".toList])

theorem nested_ok {L : Lang ι} {cfg : Config} (i : ι) (s : String) (hi : (L.langItem i).flatten ≠ [])
    (h1 : toVec L cfg (history [.append (lit "f {")]).items = some ["f {".toList])
    (h2 : toVec L cfg (history [.appendLang i, .append (lit " x")]).items = some [s.toList])
    (h3 : toVec L cfg (history [.append (lit "}")]).items = some ["}".toList]) : (nested i s).Ok L cfg := by
  refine ⟨⟨line_own _ [] _ rfl (by decide) rfl rfl (by show "f {".toList ≠ []; decide) ?_, h1⟩,
    ⟨line_own _ [_] _ rfl (by decide) rfl rfl hi ?_, h2⟩,
    ⟨line_own _ [] _ rfl (by decide) rfl rfl (by show "}".toList ≠ []; decide) ?_, h3⟩⟩
  · show ∀ A ∈ ([lit "f {"] : List (Item ι)).inits, _
    simp [height, markStep, indOf, lit]
  · show ∀ A ∈ ([.lang _ i, lit " x"] : List (Item ι)).inits, _
    simp [height, markStep, indOf, lit]
  · show ∀ A ∈ ([lit "}"] : List (Item ι)).inits, _
    simp [height, markStep, indOf, lit]

example : (nested (⟨.static "a/fmt".toList, .static "P".toList⟩ : Go.Import) "fmt.P x").Ok Go.lang ⟨.tab, ['\n']⟩ :=
  nested_ok _ _ (by decide) (by decide) (by decide) (by decide)

example : toFileVec Go.lang ⟨.tab, ['\n']⟩ (Go.file (some (.static "m".toList))
      (history (nested (⟨.static "a/fmt".toList, .static "P".toList⟩ : Go.Import) "fmt.P x").calls)) =
    some ["package m".toList, [], "import \"a/fmt\"".toList, [], "f {".toList, "\tfmt.P x".toList, "}".toList] := by
  decide +kernel

example : (nested (⟨.static "a.h".toList, .static "P".toList, true⟩ : C.Import) "P x").Ok C.lang ⟨.tab, ['\n']⟩ :=
  nested_ok _ _ (by decide) (by decide) (by decide) (by decide)

example : (nested (⟨.static "A".toList, .static "P".toList⟩ : Swift.Import) "P x").Ok Swift.lang ⟨.tab, ['\n']⟩ :=
  nested_ok _ _ (by decide) (by decide) (by decide) (by decide)

example : (nested (⟨.static "a:b".toList, .static "P".toList, some (.static "q".toList)⟩ : Dart.Import) "q.P x").Ok
    Dart.lang ⟨.tab, ['\n']⟩ :=
  nested_ok _ _ (by decide) (by decide) (by decide) (by decide)

/-- The import of the example for Python. -/
def pythonRef : Python.Import := .object (.qualified (.static "a.b".toList) none) (.static "P".toList) none

example : (nested pythonRef "a.b.P x").Ok Python.lang ⟨.tab, ['\n']⟩ ∧
    ∀ i ∈ (nested pythonRef "a.b.P x").imports, PythonFile.Proper i := by
  refine ⟨nested_ok _ _ (by decide) (by decide) (by decide) (by decide), ?_⟩
  have : (nested pythonRef "a.b.P x").imports = [pythonRef] := rfl
  rw [this]
  simp only [List.mem_singleton, forall_eq]
  refine ⟨by decide, ?_⟩
  show ∀ x ∈ PythonFile.names pythonRef, _
  decide

/-- The import of the example for Rust. -/
def rustRef : Rust.Import := Rust.import_ (.static "std::fmt".toList) (.static "P".toList)

example : (nested rustRef "P x").Ok (Rust.lang .direct) ⟨.tab, ['\n']⟩ ∧
    ∀ i ∈ (nested rustRef "P x").imports, RustFile.Proper i := by
  refine ⟨nested_ok _ _ (by decide) (by decide) (by decide) (by decide), ?_⟩
  have : (nested rustRef "P x").imports = [rustRef] := rfl
  rw [this]
  simp only [List.mem_singleton, forall_eq]
  exact ⟨by decide, by decide, (by rintro a h; cases h), (by rintro m a h; cases h), "fmt".toList, by decide,
    .inr ⟨"std".toList, by decide⟩⟩

example : (nested (⟨.named, .global (.static "m.js".toList), .static "P".toList, none⟩ : Js.Import) "P x").Ok Js.lang
    ⟨.tab, ['\n']⟩ :=
  nested_ok _ _ (by decide) (by decide) (by decide) (by decide)

example : (nested (Nix.Import.inherit (.static "pkgs.lib".toList) (.static "P".toList)) "P x").Ok Nix.lang ⟨.tab, ['\n']⟩ ∧
    NixFile.Exprs ⟨.tab, ['\n']⟩
      (nested (Nix.Import.inherit (.static "pkgs.lib".toList) (.static "P".toList)) "P x").imports := by
  refine ⟨nested_ok _ _ (by decide) (by decide) (by decide) (by decide), ?_⟩
  intro n v h
  cases List.mem_singleton.1 h

/-- A C# class in a namespace. -/
def csharpProgram : Program Csharp.Import :=
  .block (.leaf [.append (lit "class A {")] ["class A {".toList])
    (.leaf [.appendLang (⟨.static "N".toList, .static "X".toList, false⟩ : Csharp.Import), .append (lit " x;")] ["X x;".toList])
    (.leaf [.append (lit "}")] ["}".toList])

theorem csharpProgram_ok : csharpProgram.Ok (Csharp.lang (some (.static "M".toList)) (history csharpProgram.calls))
    ⟨.space 4, ['\n']⟩ := by
  refine ⟨⟨line_own _ [] _ rfl (by decide) (by decide) (by decide) (by decide +kernel) (by decide), by decide +kernel⟩,
    ⟨line_own _ [_] _ rfl (by decide) (by decide) (by decide) (by decide +kernel) (by decide), by decide +kernel⟩,
    ⟨line_own _ [] _ rfl (by decide) (by decide) (by decide) (by decide +kernel) (by decide), by decide +kernel⟩⟩

example : toFileVec (Csharp.lang (some (.static "M".toList)) (history csharpProgram.calls)) ⟨.space 4, ['\n']⟩
      (Csharp.file (some (.static "M".toList)) (history csharpProgram.calls)) =
    some ["using N;".toList, [], "namespace M {".toList, "    class A {".toList, "        X x;".toList, "    }".toList,
      "}".toList] := by
  decide +kernel

/-- C112. Of a Java program: a part on its own would write the reference in short, in the file of the whole it is
written in full. The lines of the parts are those with the imports of the whole. -/
theorem C112_java_whole : ∃ cs : List (Call Java.Import),
    toVec (Java.lang none (history cs)) ⟨.space 4, ['\n']⟩ (history cs).items = some ["X y;".toList] ∧
    toVec (Java.lang none (history javaProgram.calls)) ⟨.space 4, ['\n']⟩ (history cs).items = some ["c.X y;".toList] :=
  ⟨[.appendLang (⟨.static "c".toList, .static "X".toList⟩ : Java.Import), .append (lit " y;")], by decide +kernel,
    by decide +kernel⟩

end Genco.Props
