import Verif.Props.Programs
import Mathlib.Data.List.Perm.Basic

/-!
# C113: the parts of a file rearranged

Programs with the same imports, in any order and any number of times, have the same header; only the lines of the
parts are at other places.
-/

set_option autoImplicit false

namespace Genco.Props

open Genco Spec Tokens

variable {ι : Type}

/-- The two programs have the same imports, in any order. -/
def SameImports (p q : Program ι) : Prop := ∀ i, i ∈ p.imports ↔ i ∈ q.imports

theorem same_walk {p q : Program ι} (h : SameImports p q) (i : ι) :
    i ∈ (history p.calls).walkImports ↔ i ∈ (history q.calls).walkImports := by
  rw [walk_mem, walk_mem, imports_eq, imports_eq]; exact h i

theorem same_inserted {p q : Program ι} (h : SameImports p q) (i : ι) : i ∈ inserted p.calls ↔ i ∈ inserted q.calls := by
  rw [imports_eq, imports_eq]; exact h i

/-! ## The languages -/

/-- C113. Go. -/
theorem C113_go (package : Option ItemStr) (cfg : Config) (p q : Program Go.Import) (hp : p.Ok Go.lang cfg)
    (hq : q.Ok Go.lang cfg) (h : SameImports p q) :
    ∃ hd, toFileVec Go.lang cfg (Go.file package (history p.calls)) = some (under hd (p.lines cfg)) ∧
      toFileVec Go.lang cfg (Go.file package (history q.calls)) = some (under hd (q.lines cfg)) := by
  have hk : Go.keys (history p.calls).walkImports = Go.keys (history q.calls).walkImports :=
    setOf_congr (by intro m; simp [same_walk h])
  refine ⟨_, (Go.file_eq package cfg _ (program_spaces _ cfg p hp)).trans (program_under _ cfg p hp _), ?_⟩
  rw [hk]
  exact (Go.file_eq package cfg _ (program_spaces _ cfg q hq)).trans (program_under _ cfg q hq _)

/-- C113. C. -/
theorem C113_c (cfg : Config) (p q : Program C.Import) (hp : p.Ok C.lang cfg) (hq : q.Ok C.lang cfg)
    (h : SameImports p q) :
    ∃ hd, toFileVec C.lang cfg (C.file (history p.calls)) = some (under hd (p.lines cfg)) ∧
      toFileVec C.lang cfg (C.file (history q.calls)) = some (under hd (q.lines cfg)) := by
  have hk : C.keys (history p.calls).walkImports = C.keys (history q.calls).walkImports :=
    setOf_congr (by intro m; simp [same_walk h])
  refine ⟨_, (C.file_eq cfg _ (program_spaces _ cfg p hp)).trans (program_under _ cfg p hp _), ?_⟩
  rw [hk]
  exact (C.file_eq cfg _ (program_spaces _ cfg q hq)).trans (program_under _ cfg q hq _)

/-- C113. Swift. -/
theorem C113_swift (cfg : Config) (p q : Program Swift.Import) (hp : p.Ok Swift.lang cfg) (hq : q.Ok Swift.lang cfg)
    (h : SameImports p q) :
    ∃ hd, toFileVec Swift.lang cfg (Swift.file (history p.calls)) = some (under hd (p.lines cfg)) ∧
      toFileVec Swift.lang cfg (Swift.file (history q.calls)) = some (under hd (q.lines cfg)) := by
  have hk : Swift.keys (history p.calls).walkImports = Swift.keys (history q.calls).walkImports :=
    setOf_congr (by intro m; simp [same_walk h])
  refine ⟨_, (Swift.file_eq cfg _ (program_spaces _ cfg p hp)).trans (program_under _ cfg p hp _), ?_⟩
  rw [hk]
  exact (Swift.file_eq cfg _ (program_spaces _ cfg q hq)).trans (program_under _ cfg q hq _)

/-- C113. Dart. -/
theorem C113_dart (cfg : Config) (p q : Program Dart.Import) (hp : p.Ok Dart.lang cfg) (hq : q.Ok Dart.lang cfg)
    (h : SameImports p q) :
    ∃ hd, toFileVec Dart.lang cfg (Dart.file (history p.calls)) = some (under hd (p.lines cfg)) ∧
      toFileVec Dart.lang cfg (Dart.file (history q.calls)) = some (under hd (q.lines cfg)) := by
  have hk : Dart.keys (history p.calls).walkImports = Dart.keys (history q.calls).walkImports :=
    setOf_congr (by intro m; simp [same_walk h])
  refine ⟨_, (Dart.file_eq cfg _ (program_spaces _ cfg p hp)).trans (program_under _ cfg p hp _), ?_⟩
  rw [hk]
  exact (Dart.file_eq cfg _ (program_spaces _ cfg q hq)).trans (program_under _ cfg q hq _)

/-- C113. Python. -/
theorem C113_python (cfg : Config) (p q : Program Python.Import) (hp : p.Ok Python.lang cfg) (hq : q.Ok Python.lang cfg)
    (h : SameImports p q) :
    ∃ hd, toFileVec Python.lang cfg (Python.file (history p.calls)) = some (under hd (p.lines cfg)) ∧
      toFileVec Python.lang cfg (Python.file (history q.calls)) = some (under hd (q.lines cfg)) := by
  have hk : Python.lines (history p.calls).walkImports = Python.lines (history q.calls).walkImports := by
    unfold Python.lines
    rw [Python.sets_congr (same_walk h)]
  refine ⟨_, (Python.file_lines cfg _ (program_spaces _ cfg p hp)).trans (program_under _ cfg p hp _), ?_⟩
  rw [hk]
  exact (Python.file_lines cfg _ (program_spaces _ cfg q hq)).trans (program_under _ cfg q hq _)

/-- C113. JavaScript, if no module has two default imports (C49_js_witness). -/
theorem C113_js (rel : List Js.Component → Str) (cfg : Config) (p q : Program Js.Import) (hp : p.Ok Js.lang cfg)
    (hq : q.Ok Js.lang cfg) (h : SameImports p q) (ho : JsFile.OneDefault p.imports) :
    ∃ hd, toFileVec Js.lang cfg (Js.file rel (history p.calls)) = some (under hd (p.lines cfg)) ∧
      toFileVec Js.lang cfg (Js.file rel (history q.calls)) = some (under hd (q.lines cfg)) := by
  have hk : Js.lines rel (history p.calls).walkImports = Js.lines rel (history q.calls).walkImports := by
    unfold Js.lines
    rw [Js.sets_congr (same_walk h) (fun i hi j hj => ho i (by rw [← imports_eq]; exact (walk_mem _ i).1 hi) j
      (by rw [← imports_eq]; exact (walk_mem _ j).1 hj))]
  refine ⟨_, (Js.file_lines rel cfg _ (program_spaces _ cfg p hp)).trans (program_under _ cfg p hp _), ?_⟩
  rw [hk]
  exact (Js.file_lines rel cfg _ (program_spaces _ cfg q hq)).trans (program_under _ cfg q hq _)

/-- C113. Rust. -/
theorem C113_rust (c : Rust.Mode) (cfg : Config) (p q : Program Rust.Import) (hp : p.Ok (Rust.lang c) cfg)
    (hq : q.Ok (Rust.lang c) cfg) (h : SameImports p q) :
    ∃ hd, toFileVec (Rust.lang c) cfg (Rust.file c (history p.calls)) = some (under hd (p.lines cfg)) ∧
      toFileVec (Rust.lang c) cfg (Rust.file c (history q.calls)) = some (under hd (q.lines cfg)) := by
  obtain ⟨us, h1, h2⟩ := C40_order c cfg p.calls q.calls (same_inserted h) (program_spaces _ cfg p hp)
    (program_spaces _ cfg q hq)
  exact ⟨_, h1.trans (program_under _ cfg p hp _), h2.trans (program_under _ cfg q hq _)⟩

/-- C113. Java. References are written in the same way in both files. -/
theorem C113_java (package : Option ItemStr) (cfg : Config) (p q : Program Java.Import)
    (hp : p.Ok (Java.lang package (history p.calls)) cfg) (hq : q.Ok (Java.lang package (history p.calls)) cfg)
    (h : SameImports p q) :
    ∃ hd, toFileVec (Java.lang package (history p.calls)) cfg (Java.file package (history p.calls)) =
        some (under hd (p.lines cfg)) ∧
      toFileVec (Java.lang package (history q.calls)) cfg (Java.file package (history q.calls)) =
        some (under hd (q.lines cfg)) := by
  have hl := (C49_java package p.calls q.calls (same_inserted h)).2
  have hq' : q.Ok (Java.lang package (history q.calls)) cfg := by rw [← hl]; exact hq
  have hk : Java.resolved package (history p.calls).walkImports = Java.resolved package (history q.calls).walkImports := by
    have : Java.keys (history p.calls).walkImports = Java.keys (history q.calls).walkImports :=
      setOf_congr (by intro x; simp only [List.mem_map, same_walk h])
    unfold Java.keys at this
    unfold Java.resolved
    rw [this]
  obtain ⟨ims, hi⟩ := Java.resolved_ok package (history p.calls).walkImports
  exact ⟨_, (Java.file_eq package cfg _ (program_spaces _ cfg p hp) hi.lines).trans (program_under _ cfg p hp _),
    (Java.file_eq package cfg _ (program_spaces _ cfg q hq') (by rw [← hk]; exact hi.lines)).trans
      (program_under _ cfg q hq' _)⟩

theorem csharp_same {ns : Option ItemStr} {p q : Program Csharp.Import} (h : SameImports p q) :
    Csharp.resolved ns (history p.calls).walkImports = Csharp.resolved ns (history q.calls).walkImports := by
  have : Csharp.keys (history p.calls).walkImports = Csharp.keys (history q.calls).walkImports :=
    setOf_congr (by intro x; simp only [List.mem_map, same_walk h])
  unfold Csharp.keys at this
  unfold Csharp.resolved
  rw [this]

/-- C113. C# without a namespace. -/
theorem C113_csharp (cfg : Config) (p q : Program Csharp.Import) (hp : p.Ok (Csharp.lang none (history p.calls)) cfg)
    (hq : q.Ok (Csharp.lang none (history p.calls)) cfg) (h : SameImports p q) :
    ∃ hd, toFileVec (Csharp.lang none (history p.calls)) cfg (Csharp.file none (history p.calls)) =
        some (under hd (p.lines cfg)) ∧
      toFileVec (Csharp.lang none (history q.calls)) cfg (Csharp.file none (history q.calls)) =
        some (under hd (q.lines cfg)) := by
  have hl := (C49_csharp none p.calls q.calls (same_inserted h)).2
  have hq' : q.Ok (Csharp.lang none (history q.calls)) cfg := by rw [← hl]; exact hq
  obtain ⟨us, hi⟩ := Csharp.resolved_ok none (history p.calls).walkImports
  exact ⟨_, (Csharp.header_file none cfg _ hi.lines _ (program_spaces _ cfg p hp)).trans (program_under _ cfg p hp _),
    (Csharp.header_file none cfg _ (by rw [← csharp_same h]; exact hi.lines) _ (program_spaces _ cfg q hq')).trans
      (program_under _ cfg q hq' _)⟩

/-- C113. C# with a namespace. -/
theorem C113_csharp_namespace (n : ItemStr) (cfg : Config) (p q : Program Csharp.Import)
    (hp : p.Ok (Csharp.lang (some n) (history p.calls)) cfg) (hq : q.Ok (Csharp.lang (some n) (history p.calls)) cfg)
    (h : SameImports p q) :
    ∃ hd, toFileVec (Csharp.lang (some n) (history p.calls)) cfg (Csharp.file (some n) (history p.calls)) =
        some (under hd (CsharpFile.namespaceLine n.text :: (p.lines cfg).map (movedIn cfg 1) ++ ["}".toList])) ∧
      toFileVec (Csharp.lang (some n) (history q.calls)) cfg (Csharp.file (some n) (history q.calls)) =
        some (under hd (CsharpFile.namespaceLine n.text :: (q.lines cfg).map (movedIn cfg 1) ++ ["}".toList])) := by
  have hl := (C49_csharp (some n) p.calls q.calls (same_inserted h)).2
  have hq' : q.Ok (Csharp.lang (some n) (history q.calls)) cfg := by rw [← hl]; exact hq
  obtain ⟨us, hi⟩ := Csharp.resolved_ok (some n) (history p.calls).walkImports
  have hu : ∀ b : List Str, fileLines (us.map CsharpFile.usingLine) (CsharpFile.namespaceLine n.text :: b ++ ["}".toList]) =
      under (us.map CsharpFile.usingLine) (CsharpFile.namespaceLine n.text :: b ++ ["}".toList]) := by
    intro b
    cases us <;> simp [fileLines, under]
  refine ⟨us.map CsharpFile.usingLine, ?_, ?_⟩
  · rw [Csharp.file_namespace n cfg _ hi.lines, ← block_eq, namespace_lines n cfg p hp, Option.map_some, hu]
  · rw [Csharp.file_namespace n cfg _ (by rw [← csharp_same h]; exact hi.lines), ← block_eq,
      namespace_lines n cfg q hq', Option.map_some, hu]

/-- C113. Nix. -/
theorem C113_nix (cfg : Config) (isScoped : Bool) (p q : Program Nix.Import) (hp : p.Ok Nix.lang cfg)
    (hq : q.Ok Nix.lang cfg) (h : SameImports p q) (hv : NixFile.Exprs cfg p.imports) :
    ∃ hd, toFileVec Nix.lang cfg (Nix.file isScoped (history p.calls)) = some (under hd (p.lines cfg)) ∧
      toFileVec Nix.lang cfg (Nix.file isScoped (history q.calls)) = some (under hd (q.lines cfg)) := by
  have hf : ∀ {β : Type} [Ord β] [Std.TransOrd β] [Std.LawfulEqOrd β] (f : Nix.Import → List β),
      setOf ((history p.calls).walkImports.flatMap f) = setOf ((history q.calls).walkImports.flatMap f) := by
    intro β _ _ _ f
    apply setOf_congr
    intro x
    simp only [List.mem_flatMap, same_walk h]
  have hvp : NixFile.Exprs cfg (history p.calls).walkImports := fun n v hi =>
    hv n v (by rw [← imports_eq]; exact (walk_mem _ _).1 hi)
  have hvq : NixFile.Exprs cfg (history q.calls).walkImports := fun n v hi => hvp n v ((same_walk h _).2 hi)
  refine ⟨_, (Nix.file_eq cfg isScoped _ (program_spaces _ cfg p hp) hvp).trans (program_under _ cfg p hp _), ?_⟩
  simp only [hf]
  exact (Nix.file_eq cfg isScoped _ (program_spaces _ cfg q hq) hvq).trans (program_under _ cfg q hq _)

/-! ## Parts in any order -/

/-- Programs one behind the other, with the same whitespace between each two of them. -/
def several (w : List WsCall) (a : Program ι) : List (Program ι) → Program ι
  | [] => a
  | b :: r => .both a w (several w b r)

theorem several_imports (w : List WsCall) (r : List (Program ι)) : ∀ a : Program ι,
    (several w a r).imports = (a :: r).flatMap Program.imports := by
  induction r with
  | nil => intro a; simp [several]
  | cons b r ih => intro a; simp [several, Program.imports, ih]

theorem several_ok (L : Lang ι) (cfg : Config) (w : List WsCall) (hn : net w = 0) (hb : 0 < gapBreaks w)
    (hs : gapSpaces w = 0) (r : List (Program ι)) : ∀ a : Program ι, (∀ p ∈ a :: r, p.Ok L cfg) →
    (several w a r).Ok L cfg := by
  induction r with
  | nil => intro a h; exact h a (by simp)
  | cons b r ih => intro a h; exact ⟨h a (by simp), ih b (fun p hp => h p (by simp [hp])), hn, hb, hs⟩

/-- C113. Parts one behind the other have the lines of the parts, with the empty lines that are asked for between
them. -/
theorem C113_several_lines (cfg : Config) (w : List WsCall) (r : List (Program ι)) : ∀ a : Program ι,
    (several w a r).lines cfg =
      a.lines cfg ++ r.flatMap fun b => List.replicate (gapBreaks w - 1) [] ++ b.lines cfg := by
  induction r with
  | nil => intro a; simp [several]
  | cons b r ih => intro a; simp [several, Program.lines, ih]

/-- C113. In any order of the parts the imports are the same, hence the header is. -/
theorem C113_perm (w : List WsCall) (a b : Program ι) (r s : List (Program ι)) (h : (a :: r).Perm (b :: s)) :
    SameImports (several w a r) (several w b s) := by
  intro i
  rw [several_imports, several_imports, List.mem_flatMap, List.mem_flatMap]
  simp only [h.mem_iff]

/-- C113. A Rust file: in any order the parts are under the same declarations. -/
theorem C113_rust_perm (c : Rust.Mode) (cfg : Config) (w : List WsCall) (hn : net w = 0) (hb : 0 < gapBreaks w)
    (hs : gapSpaces w = 0) (a b : Program Rust.Import) (r s : List (Program Rust.Import)) (h : (a :: r).Perm (b :: s))
    (hp : ∀ p ∈ a :: r, p.Ok (Rust.lang c) cfg) :
    ∃ hd, toFileVec (Rust.lang c) cfg (Rust.file c (history (several w a r).calls)) =
        some (under hd (a.lines cfg ++ r.flatMap fun b => List.replicate (gapBreaks w - 1) [] ++ b.lines cfg)) ∧
      toFileVec (Rust.lang c) cfg (Rust.file c (history (several w b s).calls)) =
        some (under hd (b.lines cfg ++ s.flatMap fun b => List.replicate (gapBreaks w - 1) [] ++ b.lines cfg)) := by
  have := C113_rust c cfg (several w a r) (several w b s) (several_ok _ cfg w hn hb hs r a hp)
    (several_ok _ cfg w hn hb hs s b fun p hm => hp p (h.mem_iff.2 hm)) (C113_perm w a b r s h)
  rwa [C113_several_lines, C113_several_lines] at this

/-- C113. A Java file: in any order the parts are under the same declarations, and their references are written in the
same way. -/
theorem C113_java_perm (package : Option ItemStr) (cfg : Config) (w : List WsCall) (hn : net w = 0) (hb : 0 < gapBreaks w)
    (hs : gapSpaces w = 0) (a b : Program Java.Import) (r s : List (Program Java.Import)) (h : (a :: r).Perm (b :: s))
    (hp : ∀ p ∈ a :: r, p.Ok (Java.lang package (history (several w a r).calls)) cfg) :
    ∃ hd, toFileVec (Java.lang package (history (several w a r).calls)) cfg
          (Java.file package (history (several w a r).calls)) =
        some (under hd (a.lines cfg ++ r.flatMap fun b => List.replicate (gapBreaks w - 1) [] ++ b.lines cfg)) ∧
      toFileVec (Java.lang package (history (several w b s).calls)) cfg
          (Java.file package (history (several w b s).calls)) =
        some (under hd (b.lines cfg ++ s.flatMap fun b => List.replicate (gapBreaks w - 1) [] ++ b.lines cfg)) := by
  have := C113_java package cfg (several w a r) (several w b s) (several_ok _ cfg w hn hb hs r a hp)
    (several_ok _ cfg w hn hb hs s b fun p hm => hp p (h.mem_iff.2 hm)) (C113_perm w a b r s h)
  rwa [C113_several_lines, C113_several_lines] at this

/-! ## Examples -/

/-- Two functions in Rust, with references to different modules. -/
def rustParts : Program Rust.Import × Program Rust.Import :=
  (nested rustRef "P x", nested (Rust.import_ (.static "a".toList) (.static "Q".toList)) "Q x")

theorem rustParts_ok : ∀ p ∈ [rustParts.1, rustParts.2], p.Ok (Rust.lang .direct) ⟨.tab, ['\n']⟩ := by
  intro p hp
  simp only [List.mem_cons, List.not_mem_nil, or_false] at hp
  rcases hp with rfl | rfl
  · exact nested_ok _ _ (by decide) (by decide) (by decide) (by decide)
  · exact nested_ok _ _ (by decide) (by decide) (by decide) (by decide)

example : toFileVec (Rust.lang .direct) ⟨.tab, ['\n']⟩
        (Rust.file .direct (history (several [.line] rustParts.1 [rustParts.2]).calls)) =
      some ["use a::Q;".toList, "use std::fmt::P;".toList, [], "f {".toList, "\tP x".toList, "}".toList, [],
        "f {".toList, "\tQ x".toList, "}".toList] ∧
    toFileVec (Rust.lang .direct) ⟨.tab, ['\n']⟩
        (Rust.file .direct (history (several [.line] rustParts.2 [rustParts.1]).calls)) =
      some ["use a::Q;".toList, "use std::fmt::P;".toList, [], "f {".toList, "\tQ x".toList, "}".toList, [],
        "f {".toList, "\tP x".toList, "}".toList] := by
  decide +kernel

/-- The members of the class of `javaProgram` in the other order. -/
def javaSwapped : Program Java.Import :=
  .block (.leaf [.append (lit "class A {")] ["class A {".toList])
    (.both (.leaf [.appendLang (⟨.static "c".toList, .static "X".toList⟩ : Java.Import), .append (lit " y;")]
        ["c.X y;".toList]) [.line]
      (.leaf [.appendLang (⟨.static "a.b".toList, .static "X".toList⟩ : Java.Import), .append (lit " x;")]
        ["X x;".toList]))
    (.leaf [.append (lit "}")] ["}".toList])

example : SameImports javaProgram javaSwapped ∧
    javaSwapped.Ok (Java.lang none (history javaProgram.calls)) ⟨.space 4, ['\n']⟩ := by
  refine ⟨?_, javaProgram_ok.1, ⟨javaProgram_ok.2.1.2.1, javaProgram_ok.2.1.1, by decide, by decide, by decide⟩,
    javaProgram_ok.2.2⟩
  intro i
  simp [javaProgram, javaSwapped, Program.imports, inserted, callItems, langOf, lit]
  tauto

/-- The same for C#. -/
def csharpTwice : Program Csharp.Import := .both csharpProgram [.line] csharpProgram

example : SameImports csharpProgram csharpTwice ∧
    csharpTwice.Ok (Csharp.lang (some (.static "M".toList)) (history csharpProgram.calls)) ⟨.space 4, ['\n']⟩ := by
  refine ⟨?_, csharpProgram_ok, csharpProgram_ok, by decide, by decide, by decide⟩
  intro i
  simp [csharpTwice, Program.imports]

/-- C113. JavaScript: with two default imports of a module the order decides which name is declared. -/
theorem C113_js_needed : ∃ p q : Program Js.Import, SameImports p q ∧ p.Ok Js.lang ⟨.tab, ['\n']⟩ ∧
    q.Ok Js.lang ⟨.tab, ['\n']⟩ ∧
    toFileVec Js.lang ⟨.tab, ['\n']⟩ (Js.file demoRel (history p.calls)) =
      some ["import a from \"m\";".toList, [], "f {".toList, "\ta x".toList, "}".toList, [], "f {".toList,
        "\tb x".toList, "}".toList] ∧
    toFileVec Js.lang ⟨.tab, ['\n']⟩ (Js.file demoRel (history q.calls)) =
      some ["import b from \"m\";".toList, [], "f {".toList, "\tb x".toList, "}".toList, [], "f {".toList,
        "\ta x".toList, "}".toList] := by
  let i : Js.Import := ⟨.default, .global (.static "m".toList), .static "a".toList, none⟩
  let j : Js.Import := ⟨.default, .global (.static "m".toList), .static "b".toList, none⟩
  have hi : (nested i "a x").Ok Js.lang ⟨.tab, ['\n']⟩ :=
    nested_ok _ _ (by decide) (by decide) (by decide) (by decide)
  have hj : (nested j "b x").Ok Js.lang ⟨.tab, ['\n']⟩ :=
    nested_ok _ _ (by decide) (by decide) (by decide) (by decide)
  refine ⟨several [.line] (nested i "a x") [nested j "b x"], several [.line] (nested j "b x") [nested i "a x"],
    C113_perm _ _ _ _ _ (List.Perm.swap _ _ _), several_ok _ _ _ (by decide) (by decide) (by decide) _ _ ?_,
    several_ok _ _ _ (by decide) (by decide) (by decide) _ _ ?_, by decide +kernel, by decide +kernel⟩
  · simp [hi, hj]
  · simp [hi, hj]

end Genco.Props
