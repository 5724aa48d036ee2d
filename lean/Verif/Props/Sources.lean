import Verif.Proofs.Lex
import Verif.Spec.Sources
import Verif.Proofs.Header
import Verif.Model.Formatter
import Mathlib.Tactic.FinCases

/-!
# C73: the headers are what the macros generate for the source
-/

set_option autoImplicit false

namespace Genco.Props

open Genco Macro Spec.Sources

variable {ι Env : Type}

/-- A text. -/
abbrev put (s : Str) : Stmt ι Code := .call (.append (.literal (.static s)))

/-- An expression. -/
abbrev val (s : Str) : Stmt ι Code := .value (code s)

/-- Statements. -/
abbrev scp (s : Code) : Stmt ι Code := .scope true s

theorem writes_of {K : Host ι Code Env} {ρ : Env} {i : Invocation} {l : List Bit} (ss : List (Stmt ι Code))
    (hc : ∀ C, i.checkIn C ss = true) (hr : ∀ t, (runBlock K ρ ss).foldl Call.run t = t.extend (bitItems l)) :
    Writes K ρ i l := by
  intro C t
  rw [runIn_eq K (hc C), hr]

/-- Statements one by one. -/
macro "run_line" "[" ls:Lean.Parser.Tactic.simpLemma,* "]" : tactic =>
  `(tactic| (intro t; simp only [runBlock, runStmt, List.foldl_append, List.foldl_cons, List.foldl_nil, $ls,*]; rfl))

/-- The statements generated. -/
macro "by_expansion" : tactic => `(tactic| (intro C; cases C <;> decide +kernel))

/-! ## C -/

/-- C73 for C, src/lang/c.rs 84-88. -/
theorem C73_c (K : Host C.Import Code Env) (ρ : Env) (file : ItemStr)
    (h1 : Holds K ρ c!"file" (.itemStrRef file)) (h2 : Holds K ρ c!"quoted(file)" (.quoted (.itemStrRef file))) :
    Writes K ρ Sources.c85 (C.lineBits (file, true)) ∧ Writes K ρ Sources.c87 (C.lineBits (file, false)) := by
  constructor
  · refine writes_of [put c!"#include", .call .space, put c!"<", val c!"file", put c!">"] ?_ ?_
    · by_expansion
    · run_line [h1 _]
  · refine writes_of [put c!"#include", .call .space, val c!"quoted(file)"] ?_ ?_
    · by_expansion
    · run_line [h2 _]

/-! ## Swift -/

/-- C73 for Swift, src/lang/swift.rs 109. The line break is part of the macro input. -/
theorem C73_swift (K : Host Swift.Import Code Env) (ρ : Env) (m : ItemStr) (h : Holds K ρ c!"module" (.itemStrRef m))
    (C : Compiler) (t : Tokens Swift.Import) :
    Sources.swift109.runIn C K ρ t = some (t.extend (.push :: bitItems [word "import", .space, .lit m])) := by
  rw [runIn_eq K (ss := [.call .push, put c!"import", .call .space, val c!"module"]) (by revert C; by_expansion)]
  congr 1
  revert t
  run_line [h _]

/-! ## Dart -/

/-- C73 for Dart, src/lang/dart/mod.rs 208-212. -/
theorem C73_dart (K : Host Dart.Import Code Env) (ρ : Env) (name al : ItemStr)
    (h1 : Holds K ρ c!"quoted(name)" (.quoted (.itemStr name))) (h2 : Holds K ρ c!"alias" (.itemStr al)) :
    Writes K ρ Sources.dart209 (Dart.lineBits (name, some al)) ∧
      Writes K ρ Sources.dart211 (Dart.lineBits (name, none)) := by
  constructor
  · refine writes_of [put c!"import", .call .space, val c!"quoted(name)", .call .space, put c!"as", .call .space,
      val c!"alias", put c!";"] ?_ ?_
    · by_expansion
    · run_line [h1 _, h2 _]
  · refine writes_of [put c!"import", .call .space, val c!"quoted(name)", put c!";"] ?_ ?_
    · by_expansion
    · run_line [h1 _]

/-! ## Go -/

/-- C73 for Go, src/lang/go.rs 80 and 148. -/
theorem C73_go (K : Host Go.Import Code Env) (ρ : Env) (package m : ItemStr)
    (h1 : Holds K ρ c!"package" (.itemStrRef package)) (h2 : Holds K ρ c!"quoted(module)" (.quoted (.itemStrRef m))) :
    Writes K ρ Sources.go80 [word "package", .space, .lit package] ∧
      Writes K ρ Sources.go148 [word "import", .space, .quoted m] := by
  constructor
  · refine writes_of [put c!"package", .call .space, val c!"package"] ?_ ?_
    · by_expansion
    · run_line [h1 _]
  · refine writes_of [put c!"import", .call .space, val c!"quoted(module)"] ?_ ?_
    · by_expansion
    · run_line [h2 _]

/-! ## Java -/

/-- C73 for Java, src/lang/java/mod.rs 75 and 204. -/
theorem C73_java (K : Host Java.Import Code Env) (ρ : Env) (package name : ItemStr)
    (h1 : Holds K ρ c!"package" (.itemStrRef package)) (h2 : Holds K ρ c!"package.clone()" (.itemStr package))
    (h3 : Holds K ρ c!"SEP" (.str ".".toList)) (h4 : Holds K ρ c!"name.clone()" (.itemStr name)) :
    Writes K ρ Sources.java75 [word "package", .space, .lit package, word ";"] ∧
      ∀ C, Sources.java204.make C K ρ = some (Tokens.fromIter
        (bitItems [word "import", .space, .lit package, boxed ".", .lit name, word ";"])) := by
  constructor
  · refine writes_of [put c!"package", .call .space, val c!"package", put c!";"] ?_ ?_
    · by_expansion
    · run_line [h1 _]
  · intro C
    rw [make_eq K (ss := [put c!"import", .call .space, val c!"package.clone()", val c!"SEP", val c!"name.clone()", put c!";"])
      (by revert C; by_expansion)]
    congr 1
    simp only [history, runBlock, runStmt, List.foldl_append, List.foldl_cons, List.foldl_nil, h2 _, h3 _, h4 _]
    rfl

/-! ## C# -/

/-- C73 for C#, src/lang/csharp/mod.rs 204. -/
theorem C73_csharp_using (K : Host Csharp.Import Code Env) (ρ : Env) (ns : Str)
    (h : Holds K ρ c!"namespace" (.str ns)) :
    Writes K ρ Sources.csharp204 [word "using", .space, .lit (.box ns), word ";"] := by
  refine writes_of [put c!"using", .call .space, val c!"namespace", put c!";"] ?_ ?_
  · by_expansion
  · run_line [h _]

/-- C73 for C#, src/lang/csharp/mod.rs 63-67, on a nightly compiler. -/
theorem C73_csharp_namespace (K : Host Csharp.Import Code Env) (ρ : Env) (n : ItemStr) (a t : Tokens Csharp.Import)
    (h1 : Holds K ρ c!"namespace" (.itemStrRef n)) (h2 : Holds K ρ c!"tokens" (.tokensRef a)) :
    Sources.csharp63.runIn .nightly K ρ t = some (((t.extend (bitItems [word "namespace", .space, .lit n, .space,
      word "{"] ++ [Item.indentation 1])).appendTokens a).extend (Item.indentation (-1) :: bitItems [word "}"])) := by
  rw [runIn_eq K (ss := [put c!"namespace", .call .space, val c!"namespace", .call .space, put c!"{", .call .indent,
    val c!"tokens", .call .unindent, put c!"}"]) (by decide +kernel)]
  congr 1
  revert t
  run_line [h1 _, h2 _]

/-- On other compilers the whole block is on one line: there is no indentation. -/
theorem C73_csharp_namespace_stable (K : Host Csharp.Import Code Env) (ρ : Env) (n : ItemStr)
    (a t : Tokens Csharp.Import) (h1 : Holds K ρ c!"namespace" (.itemStrRef n)) (h2 : Holds K ρ c!"tokens" (.tokensRef a)) :
    Sources.csharp63.runIn .stable K ρ t = some (((t.extend (bitItems [word "namespace", .space, .lit n, .space,
      word "{", .space])).appendTokens a).extend (bitItems [.space, word "}"])) := by
  rw [runIn_eq K (ss := [put c!"namespace", .call .space, val c!"namespace", .call .space, put c!"{", .call .space,
    val c!"tokens", .call .space, put c!"}"]) (by decide +kernel)]
  congr 1
  revert t
  run_line [h1 _, h2 _]

/-! ## Nix -/

/-- C73 for Nix, src/lang/nix.rs 166, 194, 232. -/
theorem C73_nix (K : Host Nix.Import Code Env) (ρ : Env) (argument : Str) (path name : ItemStr)
    (h1 : Holds K ρ c!"argument" (.string argument)) (h2 : Holds K ρ c!"path" (.itemStrRef path))
    (h3 : Holds K ρ c!"name" (.itemStrRef name)) :
    Writes K ρ Sources.nix166 [.lit (.box argument), word ","] ∧
      Writes K ρ Sources.nix194 [word "with", .space, .lit name, word ";"] ∧
      Writes K ρ Sources.nix232 [word "inherit", .space, word "(", .lit path, word ")", .space, .lit name, word ";"] := by
  refine ⟨?_, ?_, ?_⟩
  · refine writes_of [val c!"argument", put c!","] ?_ ?_
    · by_expansion
    · run_line [h1 _]
  · refine writes_of [put c!"with", .call .space, val c!"name", put c!";"] ?_ ?_
    · by_expansion
    · run_line [h3 _]
  · refine writes_of [put c!"inherit", .call .space, put c!"(", val c!"path", put c!")", .call .space, val c!"name", put c!";"] ?_ ?_
    · by_expansion
    · run_line [h2 _, h3 _]

/-- C73 for the variables of Nix, src/lang/nix.rs 237. -/
theorem C73_nix_variable (K : Host Nix.Import Code Env) (ρ : Env) (name : ItemStr) (value : Tokens Nix.Import)
    (h1 : Holds K ρ c!"name" (.itemStrRef name)) (h2 : Holds K ρ c!"value" (.tokensRef value))
    (C : Compiler) (t : Tokens Nix.Import) :
    Sources.nix237.runIn C K ρ t = some (t.extend
      (bitItems [.lit name, .space, word "=", .space] ++ value.items ++ bitItems [word ";"])) := by
  rw [runIn_eq K (ss := [val c!"name", .call .space, put c!"=", .call .space, val c!"value", put c!";"])
    (by revert C; by_expansion)]
  congr 1
  rw [Genco.extend_append, Genco.extend_append]
  revert t
  run_line [h1 _, h2 _]

/-! ## Python -/

/-- The condition and the variable of `if let Some(a) = alias`. -/
def IfAlias (K : Host ι Code Env) (ρ : Env) : Option ItemStr → Prop
  | none => K.test ρ (code c!"let Some(a) = alias") = none
  | some x => ∃ ρ', K.test ρ (code c!"let Some(a) = alias") = some ρ' ∧ Holds K ρ' c!"a" (.itemStrRef x)

/-- C73 for a name of Python, src/lang/python.rs 327. -/
theorem C73_python_name (K : Host Python.Import Code Env) (ρ : Env) (name : ItemStr) (al : Option ItemStr)
    (h1 : Holds K ρ c!"name" (.itemStrRef name)) (h2 : IfAlias K ρ al) (C : Compiler) :
    Sources.python327.make C K ρ = some (Tokens.fromIter (bitItems (Python.nameBits (name, al)))) := by
  rw [make_eq K (ss := [val c!"name", .ifThen (code c!"let Some(a) = alias")
    [.call .space, put c!"as", .call .space, val c!"a"]]) (by revert C; by_expansion)]
  congr 1
  cases al with
  | none =>
    have ht : K.test ρ (code c!"let Some(a) = alias") = none := h2
    simp only [history, runBlock, runStmt, List.foldl_append, List.foldl_cons, List.foldl_nil, h1 _, ht]
    rfl
  | some x =>
    obtain ⟨ρ', ht, ha⟩ := h2
    simp only [history, runBlock, runStmt, List.foldl_append, List.foldl_cons, List.foldl_nil, h1 _, ht,
      Option.elim_some, ha _]
    rfl

/-- A name of Python as it is. -/
theorem name_items (e : ItemStr × Option ItemStr) :
    (Tokens.fromIter (bitItems (Python.nameBits e)) : Tokens Python.Import).items = bitItems (Python.nameBits e) := by
  obtain ⟨n, a⟩ := e
  cases a <;> rfl

theorem bitItems_append (a b : List Bit) : (bitItems (a ++ b) : List (Item ι)) = bitItems a ++ bitItems b :=
  List.flatMap_append

/-- C73 for one name of Python, src/lang/python.rs 331-333. -/
theorem C73_python_one (K : Host Python.Import Code Env) (ρ : Env) (m : ItemStr) (e : ItemStr × Option ItemStr)
    (h1 : Holds K ρ c!"module" (.itemStrRef m))
    (h2 : Holds K ρ c!"imports.into_iter().next()" (.some (.tokens (Tokens.fromIter (bitItems (Python.nameBits e)))))) :
    Writes K ρ Sources.python331 (Python.fromBits (m, [e])) := by
  refine writes_of [put c!"from", .call .space, val c!"module", .call .space, put c!"import", .call .space,
    val c!"imports.into_iter().next()"] ?_ ?_
  · by_expansion
  · intro t
    rw [Python.fromBits, bitItems_append, Genco.extend_append]
    simp only [runBlock, runStmt, List.foldl_append, List.foldl_cons, List.foldl_nil, h1 _, h2 _, Value.formatInto,
      name_items]
    rfl

theorem join_loop (K : Host Python.Import Code Env) : ∀ (es : List (Env × ItemStr × Option ItemStr))
    (t : Tokens Python.Import),
    (∀ e ∈ es, Holds K e.1 c!"i" (.tokens (Tokens.fromIter (bitItems (Python.nameBits e.2))))) →
    (peekLoop (fun ρ => K.value ρ (code c!"i")) (fun _ => [.append (.literal (.static ",".toList)), .space])
      (es.map (·.1))).foldl Call.run t =
      t.extend (bitItems (Python.joinBits (es.map (fun e => Python.nameBits e.2))))
  | [], t, _ => rfl
  | [e], t, h => by
    have := h e (by simp)
    simp [peekLoop, Python.joinBits, this _, Value.formatInto, name_items]
  | e :: f :: es, t, h => by
    have h1 := h e (by simp)
    have h2 := join_loop K (f :: es) (t := ((t.extend (bitItems (Python.nameBits e.2))).extend
      (bitItems [word ",", .space]))) (fun x hx => h x (by simp only [List.mem_cons] at hx ⊢; exact .inr hx))
    have hj : Python.joinBits ((e :: f :: es).map (fun e => Python.nameBits e.2)) = Python.nameBits e.2 ++
      [word ",", .space] ++ Python.joinBits ((f :: es).map (fun e => Python.nameBits e.2)) := rfl
    rw [hj, bitItems_append, bitItems_append, Genco.extend_append, Genco.extend_append, ← h2, List.map_cons, peekLoop,
      List.foldl_append, List.foldl_append, h1 _, Value.formatInto, name_items]
    rfl

/-- C73 for several names of Python, src/lang/python.rs 335-337. -/
theorem C73_python_many (K : Host Python.Import Code Env) (ρ : Env) (m : ItemStr)
    (es : List (Env × ItemStr × Option ItemStr)) (h1 : Holds K ρ c!"module" (.itemStrRef m))
    (h2 : K.iter ρ (code c!"i") (code c!"imports") = es.map (·.1))
    (h3 : ∀ e ∈ es, Holds K e.1 c!"i" (.tokens (Tokens.fromIter (bitItems (Python.nameBits e.2))))) :
    Writes K ρ Sources.python335 (Python.fromBits (m, es.map (·.2))) := by
  refine writes_of [put c!"from", .call .space, val c!"module", .call .space, put c!"import", .call .space,
    .joinIn (code c!"i") (code c!"imports") [put c!",", .call .space] [val c!"i"]] ?_ ?_
  · by_expansion
  · intro t
    rw [Python.fromBits, bitItems_append, Genco.extend_append, List.map_map]
    rw [show Python.nameBits ∘ (fun e : Env × ItemStr × Option ItemStr => e.2) = fun e => Python.nameBits e.2 from rfl,
      ← join_loop K es _ h3]
    simp only [runBlock, runStmt, List.foldl_append, List.foldl_cons, List.foldl_nil, h1 _, h2, List.append_nil,
      List.singleton_append]
    rfl

/-- C73 for the modules of Python, src/lang/python.rs 344-346. -/
theorem C73_python_module (K : Host Python.Import Code Env) (ρ : Env) (m : ItemStr) (al : Option ItemStr)
    (h1 : Holds K ρ c!"module" (.itemStrRef m)) (h2 : IfAlias K ρ al) :
    Writes K ρ Sources.python344 (Python.importBits (m, al)) := by
  refine writes_of [put c!"import", .call .space, val c!"module", .ifThen (code c!"let Some(a) = alias")
    [.call .space, put c!"as", .call .space, val c!"a"]] ?_ ?_
  · by_expansion
  · cases al with
    | none =>
      have ht : K.test ρ _ = none := h2
      run_line [h1 _, ht]
    | some x =>
      obtain ⟨ρ', ht, ha⟩ := h2
      run_line [h1 _, ht, Option.elim_some, ha _]

/-! ## JavaScript -/

/-- The pattern of the first arm of `render_from`. -/
def arm1 : Str := c!"(_, Module::Global(from))"
/-- The pattern of the second arm. -/
def arm2 : Str := c!"(None, Module::Path(path))"
/-- The pattern of the third arm. -/
def arm3 : Str := c!"(Some(module_path), Module::Path(path))"

/-- What the `match` of `render_from` does: which arm is taken, and what is bound. `rel` gives
the text of a path, or of the path relative to the configured one. -/
def RenderFrom (K : Host Js.Import Code Env) (ρ : Env) (rel : List Js.Component → Str) : Js.Mod → Prop
  | .global s => ∃ ρ', K.pick ρ (code c!"(module_path, module)") (code arm1) none = some ρ' ∧
      Holds K ρ' c!"quoted(from)" (.quoted (.itemStrRef s))
  | .path p => K.pick ρ (code c!"(module_path, module)") (code arm1) none = none ∧
      ((∃ ρ', K.pick ρ (code c!"(module_path, module)") (code arm2) none = some ρ' ∧
          Holds K ρ' c!"quoted(path.as_str())" (.quoted (.str (rel p)))) ∨
        (K.pick ρ (code c!"(module_path, module)") (code arm2) none = none ∧
          ∃ ρ', K.pick ρ (code c!"(module_path, module)") (code arm3) none = some ρ' ∧
            Holds K ρ' c!"quoted(module_path.relative(path).as_str())" (.quoted (.str (rel p)))))

/-- C73 for the source of a JavaScript module, src/lang/js.rs 509-515. -/
theorem C73_js_from (K : Host Js.Import Code Env) (ρ : Env) (rel : List Js.Component → Str) (m : Js.Mod)
    (h : RenderFrom K ρ rel m) : Writes K ρ Sources.js509 [.quoted (Js.fromText rel m)] := by
  refine writes_of [.select (code c!"(module_path, module)") [(code arm1, none, [val c!"quoted(from)"]),
    (code arm2, none, [val c!"quoted(path.as_str())"]),
    (code arm3, none, [val c!"quoted(module_path.relative(path).as_str())"])]] ?_ ?_
  · by_expansion
  · cases m with
    | global s =>
      obtain ⟨ρ', h1, h2⟩ := h
      run_line [runArms, h1, runArm, h2 _]
    | path p =>
      obtain ⟨h0, ⟨ρ', h1, h2⟩ | ⟨h1, ρ', h2, h3⟩⟩ := h
      · run_line [runArms, h0, h1, runArm, h2 _]
      · run_line [runArms, h0, h1, h2, runArm, h3 _]

/-- C73 for JavaScript wildcards, src/lang/js.rs 449-451. -/
theorem C73_js_wildcard (K : Host Js.Import Code Env) (ρ : Env) (rel : List Js.Component → Str) (m : Js.Mod)
    (name : ItemStr) (h1 : Holds K ρ c!"name" (.itemStrRef name))
    (h2 : Adds K ρ (code c!"render_from(t, config.module_path.as_deref(), module)") [.quoted (Js.fromText rel m)]) :
    Writes K ρ Sources.js449 (Js.wildcardBits rel (m, name)) := by
  refine writes_of [put c!"import", .call .space, put c!"*", .call .space, put c!"as", .call .space, val c!"name",
    .call .space, put c!"from", .call .space, scp (code c!"render_from(t, config.module_path.as_deref(), module)"), put c!";"] ?_ ?_
  · by_expansion
  · run_line [h1 _, if_true, h2 _]

/-- C73 for a JavaScript name with alias, src/lang/js.rs 478. -/
theorem C73_js_element (K : Host Js.Import Code Env) (ρ : Env) (name al : ItemStr)
    (h1 : Holds K ρ c!"name" (.itemStrRef name)) (h2 : Holds K ρ c!"alias" (.itemStrRef al)) :
    Writes K ρ Sources.js478 (Js.Element.aliased name al).bits := by
  refine writes_of [val c!"name", .call .space, put c!"as", .call .space, val c!"alias"] ?_ ?_
  · by_expansion
  · run_line [h1 _, h2 _]

/-- The statements that write the names of a module, src/lang/js.rs 457-489. -/
def names : Code := codes [
  c!"{",
  c!"  if let Some(default) = module.default_import {",
  c!"    tokens.append(ItemStr::from(default));",
  c! r#"    if !module.set.is_empty() { tokens.append(","); tokens.space(); }"#,
  c!"  }",
  c!"  if !module.set.is_empty() {",
  c! r#"    tokens.append("{");"#,
  c!"    let mut it = module.set.iter().peekable();",
  c!"    while let Some(el) = it.next() {",
  c!"      match *el {",
  c!"        ImportedElement::Plain(name) => { tokens.append(name); },",
  c!"        ImportedElement::Aliased(name, alias) => { quote_in!(*tokens => $name as $alias); }",
  c!"      }",
  c! r#"      if it.peek().is_some() { tokens.append(","); tokens.space(); }"#,
  c!"    }",
  c! r#"    tokens.append("}");"#,
  c!"  }",
  c!"}"]

/-- C73 for JavaScript modules, src/lang/js.rs 456-491. -/
theorem C73_js_module (K : Host Js.Import Code Env) (ρ : Env) (rel : List Js.Component → Str) (m : Js.Mod)
    (r : Js.Resolved)
    (h1 : Adds K ρ names ((match r.defaultImport with
      | some d => .lit d :: (if r.set.isEmpty then [] else [boxed ",", .space])
      | none => []) ++ (if r.set.isEmpty then [] else [boxed "{"] ++ Js.elementsBits r.set ++ [boxed "}"])))
    (h2 : Adds K ρ (code c!"render_from(t, config.module_path.as_deref(), name)") [.quoted (Js.fromText rel m)]) :
    Writes K ρ Sources.js456 (Js.moduleBits rel (m, r)) := by
  refine writes_of [put c!"import", .call .space, scp names, .call .space, put c!"from", .call .space,
    scp (code c!"render_from(t, config.module_path.as_deref(), name)"), put c!";"] ?_ ?_
  · by_expansion
  · intro t
    unfold Js.moduleBits
    rw [bitItems_append, Genco.extend_append, List.append_assoc, bitItems_append, Genco.extend_append]
    simp only [runBlock, runStmt, List.foldl_append, List.foldl_cons, List.foldl_nil, if_true, h1 _, h2 _]
    rfl

/-! ## Rust -/

/-- C73 for lines with one import, src/lang/rust.rs 485-501. -/
theorem C73_rust_line (K : Host Rust.Import Code Env) (ρ : Env) (m name al : ItemStr)
    (h1 : Holds K ρ c!"m" (.itemStrRef m)) (h2 : Holds K ρ c!"name" (.itemStrRef name))
    (h3 : Holds K ρ c!"alias" (.itemStrRef al)) :
    Writes K ρ Sources.rust487 (Rust.lineBits m [.self]) ∧
      Writes K ρ Sources.rust490 (Rust.lineBits m [.selfAlias al]) ∧
      Writes K ρ Sources.rust496 (Rust.lineBits m [.name name (some al)]) ∧
      Writes K ρ Sources.rust499 (Rust.lineBits m [.name name none]) := by
  refine ⟨?_, ?_, ?_, ?_⟩
  · refine writes_of [put c!"use", .call .space, val c!"m", put c!";"] ?_ ?_
    · by_expansion
    · run_line [h1 _]
  · refine writes_of [put c!"use", .call .space, val c!"m", .call .space, put c!"as", .call .space, val c!"alias", put c!";"] ?_ ?_
    · by_expansion
    · run_line [h1 _, h3 _]
  · refine writes_of [put c!"use", .call .space, val c!"m", put c!"::", val c!"name", .call .space, put c!"as", .call .space,
      val c!"alias", put c!";"] ?_ ?_
    · by_expansion
    · run_line [h1 _, h2 _, h3 _]
  · refine writes_of [put c!"use", .call .space, val c!"m", put c!"::", val c!"name", put c!";"] ?_ ?_
    · by_expansion
    · run_line [h1 _, h2 _]

/-- C73 for what is in a group, src/lang/rust.rs 577-595. -/
theorem C73_rust_item (K : Host Rust.Import Code Env) (ρ : Env) (name al : ItemStr)
    (h2 : Holds K ρ c!"name" (.itemStrRef name)) (h3 : Holds K ρ c!"alias" (.itemStrRef al)) :
    Writes K ρ Sources.rust580 (Rust.RItem.bits .self) ∧
      Writes K ρ Sources.rust583 (Rust.RItem.bits (.selfAlias al)) ∧
      Writes K ρ Sources.rust589 (Rust.RItem.bits (.name name (some al))) ∧
      Writes K ρ Sources.rust592 (Rust.RItem.bits (.name name none)) := by
  refine ⟨?_, ?_, ?_, ?_⟩
  · refine writes_of [put c!"self"] ?_ ?_
    · by_expansion
    · run_line []
  · refine writes_of [put c!"self", .call .space, put c!"as", .call .space, val c!"alias"] ?_ ?_
    · by_expansion
    · run_line [h3 _]
  · refine writes_of [val c!"name", .call .space, put c!"as", .call .space, val c!"alias"] ?_ ?_
    · by_expansion
    · run_line [h2 _, h3 _]
  · refine writes_of [val c!"name"] ?_ ?_
    · by_expansion
    · run_line [h2 _]

/-- C73 for the separators in a group, src/lang/rust.rs 477 and 480. -/
theorem C73_rust_next (K : Host Rust.Import Code Env) (ρ : Env) (i : Rust.RItem)
    (h1 : Adds K ρ (code c!"second.render(o)") i.bits) (h2 : Adds K ρ (code c!"item.render(o)") i.bits) :
    Writes K ρ Sources.rust477 (word "," :: .space :: i.bits) ∧
      Writes K ρ Sources.rust480 (word "," :: .space :: i.bits) := by
  constructor
  · refine writes_of [put c!",", .call .space, scp (code c!"second.render(o)")] ?_ ?_
    · by_expansion
    · run_line [h1 _, if_true]
  · refine writes_of [put c!",", .call .space, scp (code c!"item.render(o)")] ?_ ?_
    · by_expansion
    · run_line [h2 _, if_true]

/-- The statements that write a group, src/lang/rust.rs 475-482. -/
def group : Code := codes [
  c!"  first.render(o);",
  c!"  quote_in!(*o => , $(ref o => second.render(o)));",
  c!"  for item in render {",
  c!"    quote_in!(*o => , $(ref o => item.render(o)));",
  c!"  }"]

/-- C73 for a group, src/lang/rust.rs 474-483. -/
theorem C73_rust_group (K : Host Rust.Import Code Env) (ρ : Env) (m : ItemStr) (first second : Rust.RItem)
    (rest : List Rust.RItem) (h1 : Holds K ρ c!"m" (.itemStrRef m))
    (h2 : Adds K ρ group (first.bits ++ (word "," :: .space :: second.bits) ++
      rest.flatMap (fun i => word "," :: .space :: i.bits))) :
    Writes K ρ Sources.rust474 (Rust.lineBits m (first :: second :: rest)) := by
  refine writes_of [put c!"use", .call .space, val c!"m", put c!"::{", scp group, put c!"};"] ?_ ?_
  · by_expansion
  · intro t
    rw [show Rust.lineBits m (first :: second :: rest) = [word "use", .space, .lit m, word "::{"] ++
      (first.bits ++ (word "," :: .space :: second.bits) ++
      rest.flatMap (fun i => word "," :: .space :: i.bits)) ++ [word "};"] by simp [Rust.lineBits],
      bitItems_append, Genco.extend_append, bitItems_append, Genco.extend_append]
    simp only [runBlock, runStmt, List.foldl_append, List.foldl_cons, List.foldl_nil, if_true, h1 _, h2 _]
    rfl

/-! ## The hypotheses can be met -/

/-- Code given by a table; a loop binds the number of the round. -/
def tableHost (vs : Nat → List (Code × List (Call ι))) (n : Nat) (yes : Code → Bool) : Host ι Code Nat where
  value ρ e := ((vs ρ).lookup e).getD []
  scope ρ e := ((vs ρ).lookup e).getD []
  iter _ _ _ := List.range n
  test ρ e := if yes e then some ρ else none
  pick ρ _ p _ := if yes p then some ρ else none
  bind ρ _ _ := ρ

/-- A text. -/
def boxCall (s : Str) : List (Call ι) := [.append (.literal (.box s))]

/-- A quoted text. -/
def quo (s : Str) : List (Call ι) := [.append (.openQuote false), .append (.literal (.box s)), .append .closeQuote]

def cHost : Host C.Import Code Nat :=
  tableHost (fun _ => [(code c!"file", boxCall c!"a.h"), (code c!"quoted(file)", quo c!"a.h")]) 0 (fun _ => false)

example : Sources.c85.runIn .stable cHost 0 .new =
    some (Tokens.new.extend (bitItems [word "#include", .space, word "<", .lit (.box "a.h".toList), word ">"])) :=
  (C73_c cHost 0 (.box "a.h".toList) (fun _ => rfl) (fun _ => rfl)).1 .stable .new

/-- The names `a as x, b` of a Python module. -/
def pythonHost : Host Python.Import Code Nat :=
  tableHost (fun ρ => [(code c!"module", boxCall c!"m"), (code c!"i", [.stream (bitItems (Python.nameBits
    (if ρ = 0 then (.box c!"a", some (.box c!"x")) else (.box c!"b", none))))])]) 2 (fun _ => false)

example : Writes pythonHost 7 Sources.python335
    (Python.fromBits (.box c!"m", [(.box c!"a", some (.box c!"x")), (.box c!"b", none)])) :=
  C73_python_many pythonHost 7 (.box c!"m") [(0, .box c!"a", some (.box c!"x")), (1, .box c!"b", none)]
    (fun _ => rfl) rfl (by intro e he; fin_cases he <;> exact fun _ => rfl)

def jsHost : Host Js.Import Code Nat :=
  tableHost (fun _ => [(code c!"quoted(module_path.relative(path).as_str())", quo c!"../a.js")]) 0
    (fun p => p == code arm3)

example : Writes jsHost 0 Sources.js509 [.quoted (.box c!"../a.js")] :=
  C73_js_from jsHost 0 (fun _ => c!"../a.js") (.path [.normal c!"a.js"])
    ⟨by decide +kernel, .inr ⟨by decide +kernel, 0, by decide +kernel, fun _ => rfl⟩⟩

def rustHost : Host Rust.Import Code Nat :=
  tableHost (fun _ => [(code c!"m", boxCall c!"std::fmt"), (group, [.stream (bitItems
    ([word "self"] ++ (word "," :: .space :: [.lit (.box c!"Debug")]) ++ []))])]) 0 (fun _ => false)

example : Writes rustHost 0 Sources.rust474 (Rust.lineBits (.box c!"std::fmt") [.self, .name (.box c!"Debug") none]) :=
  C73_rust_group rustHost 0 (.box c!"std::fmt") .self (.name (.box c!"Debug") none) [] (fun _ => rfl)
    (fun _ => by
      have : rustHost.scope 0 group = [.stream (bitItems
        ([word "self"] ++ (word "," :: .space :: [.lit (.box c!"Debug")]) ++ []))] := by
        have hg : (group == code c!"m") = false := by decide +kernel
        simp only [rustHost, tableHost]
        generalize group = g at hg
        simp [List.lookup_cons, hg]
      rw [this]; rfl)

/-- A host where the words have these texts. -/
def wordsHost (vs : List (Str × List (Call ι))) : Host ι Code Nat :=
  tableHost (fun _ => vs.map (fun v => (code v.1, v.2))) 0 (fun _ => true)

example := C73_swift (wordsHost [(c!"module", boxCall c!"UIKit")]) 0 (.box c!"UIKit") (fun _ => rfl) .nightly .new

example := C73_dart (wordsHost [(c!"quoted(name)", quo c!"dart:math"), (c!"alias", boxCall c!"m")]) 0 (.box c!"dart:math")
  (.box c!"m") (fun _ => rfl) (fun _ => rfl)

example := C73_go (wordsHost [(c!"quoted(module)", quo c!"a/b"), (c!"package", boxCall c!"p")]) 0 (.box c!"p")
  (.box c!"a/b") (fun _ => rfl) (fun _ => rfl)

example := C73_java (wordsHost [(c!"package", boxCall c!"p"), (c!"package.clone()", boxCall c!"p"), (c!"SEP", boxCall c!"."),
  (c!"name.clone()", boxCall c!"A")]) 0 (.box c!"p") (.box c!"A") (fun _ => rfl) (fun _ => rfl) (fun _ => rfl) (fun _ => rfl)

example := C73_csharp_using (wordsHost [(c!"namespace", boxCall c!"System")]) 0 c!"System" (fun _ => rfl)

example := C73_nix (wordsHost [(c!"argument", boxCall c!"a"), (c!"path", boxCall c!"p.q"), (c!"name", boxCall c!"n")]) 0 c!"a"
  (.box c!"p.q") (.box c!"n") (fun _ => rfl) (fun _ => rfl) (fun _ => rfl)

example := C73_nix_variable (wordsHost [(c!"name", boxCall c!"n"), (c!"value", boxCall c!"null")]) 0 (.box c!"n")
  (history (boxCall c!"null")) (fun _ => rfl) (fun _ => rfl) .stable .new

/-- The variable `a` is there only where the condition holds. -/
def boundHost : Host Python.Import Code Nat :=
  { tableHost (fun ρ => (code c!"name", boxCall c!"n") :: if ρ = 1 then [(code c!"a", boxCall c!"x")] else []) 0
      (fun _ => true) with test := fun _ _ => some 1 }

example := C73_python_name boundHost 0 (.box c!"n") (some (.box c!"x")) (fun _ => rfl) ⟨1, rfl, fun _ => rfl⟩ .stable

example := C73_python_name (wordsHost [(c!"name", boxCall c!"n"), (c!"a", boxCall c!"x")]) 0 (.box c!"n") (some (.box c!"x"))
  (fun _ => rfl) ⟨0, rfl, fun _ => rfl⟩ .stable

example := C73_python_one (wordsHost [(c!"module", boxCall c!"m"), (c!"imports.into_iter().next()", boxCall c!"n")]) 0
  (.box c!"m") (.box c!"n", none) (fun _ => rfl) (fun _ => rfl)

example := C73_python_module (wordsHost [(c!"module", boxCall c!"m"), (c!"a", boxCall c!"x")]) 0 (.box c!"m")
  (some (.box c!"x")) (fun _ => rfl) ⟨0, rfl, fun _ => rfl⟩

example := C73_js_wildcard (wordsHost [(c!"name", boxCall c!"n"),
  (c!"render_from(t, config.module_path.as_deref(), module)", quo c!"m")]) 0 (fun _ => []) (.global (.box c!"m"))
  (.box c!"n") (fun _ => rfl) (fun _ => rfl)

example := C73_js_element (wordsHost [(c!"name", boxCall c!"n"), (c!"alias", boxCall c!"x")]) 0 (.box c!"n") (.box c!"x")
  (fun _ => rfl) (fun _ => rfl)

/-- A default import, and a name in braces. -/
def jsModuleHost : Host Js.Import Code Nat :=
  tableHost (fun _ => [(code c!"render_from(t, config.module_path.as_deref(), name)", quo c!"m"),
    (names, [.append (.literal (.box c!"d")), .append (.literal (.box c!",")), .space, .append (.literal (.box c!"{")),
      .append (.literal (.box c!"n")), .append (.literal (.box c!"}"))])]) 0 (fun _ => true)

example := C73_js_module jsModuleHost 0 (fun _ => []) (.global (.box c!"m")) ⟨some (.box c!"d"), [.plain (.box c!"n")]⟩
  (by
    have hg : (names == code c!"render_from(t, config.module_path.as_deref(), name)") = false := by decide +kernel
    intro t
    simp only [jsModuleHost, tableHost]
    generalize names = g at hg
    rw [List.lookup_cons, hg]
    simp only [List.lookup_cons, beq_self_eq_true]
    rfl) (fun _ => rfl)

example := C73_rust_line (wordsHost [(c!"m", boxCall c!"std"), (c!"name", boxCall c!"n"), (c!"alias", boxCall c!"x")]) 0
  (.box c!"std") (.box c!"n") (.box c!"x") (fun _ => rfl) (fun _ => rfl) (fun _ => rfl)

example := C73_rust_item (wordsHost [(c!"name", boxCall c!"n"), (c!"alias", boxCall c!"x")]) 0 (.box c!"n") (.box c!"x")
  (fun _ => rfl) (fun _ => rfl)

example := C73_rust_next (wordsHost [(c!"second.render(o)", boxCall c!"n"), (c!"item.render(o)", boxCall c!"n")]) 0
  (.name (.box c!"n") none) (fun _ => rfl) (fun _ => rfl)

def csharpHost : Host Csharp.Import Code Nat :=
  tableHost (fun _ => [(code c!"namespace", boxCall c!"N"),
    (code c!"tokens", [.stream [.literal (.box c!"a"), .push, .literal (.box c!"b")]])]) 0 (fun _ => false)

/-- The lines of the stream. -/
def linesOf (t : Option (Tokens Csharp.Import)) : Option (List Str) :=
  t.bind (fun t => toVec (csharpLang (fun _ : Csharp.Import => [])) ⟨.space 4, ['\n']⟩ t.items)

/-- A namespace on a nightly compiler. -/
example : linesOf (Sources.csharp63.runIn .nightly csharpHost 0 .new) =
    some [c!"namespace N {", c!"    a", c!"    b", c!"}"] := by
  rw [C73_csharp_namespace csharpHost 0 (.box c!"N")
    (Tokens.fromIter [.literal (.box c!"a"), .push, .literal (.box c!"b")]) .new (fun _ => rfl) (fun _ => rfl)]
  decide +kernel

/-- The same on another compiler. -/
theorem C73_csharp_namespace_negative : linesOf (Sources.csharp63.runIn .stable csharpHost 0 .new) =
    some [c!"namespace N { a", c!"b }"] := by
  rw [C73_csharp_namespace_stable csharpHost 0 (.box c!"N")
    (Tokens.fromIter [.literal (.box c!"a"), .push, .literal (.box c!"b")]) .new (fun _ => rfl) (fun _ => rfl)]
  decide +kernel

/-- A binding: the pattern ends before `=`. No invocation in `src/lang` has one. -/
example : (⟨⟨1, 0, 0⟩, [c!"$(let x = y.z)a"]⟩ : Invocation).check .nightly
    ([.bind (code c!"x") (code c!"y.z"), put c!"a"] : List (Stmt C.Import Code)) = true := by decide +kernel

/-- Arms with a guard: the pattern ends before `if`. No invocation in `src/lang` has one. -/
example : (⟨⟨1, 0, 0⟩, [c!"$(match x { Some(n) if n => a, _ => b })"]⟩ : Invocation).check .nightly
    ([.select (code c!"x") [(code c!"Some(n)", some (code c!"n"), [put c!"a"]), (code c!"_", none, [put c!"b"])]] :
      List (Stmt C.Import Code)) = true := by decide +kernel

end Genco.Props
