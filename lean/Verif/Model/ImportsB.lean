import Verif.Model.ImportsA

/-!
# Imports of Python, Java, C#, JavaScript and Nix
-/

set_option autoImplicit false

namespace Genco

/-! ## Python, src/lang/python.rs -/

namespace Python

/-- `TypeModule`, src/lang/python.rs 99-110. -/
inductive Mod where
  | unqualified (p : ItemStr)
  | qualified (p : ItemStr) (alias : Option ItemStr)
  deriving DecidableEq, Repr

/-- `Any`: `Import` (src/lang/python.rs 140-147) or `ImportModule` (249-255). -/
inductive Import where
  | object (module : Mod) (name : ItemStr) (alias : Option ItemStr)
  | module (p : ItemStr) (alias : Option ItemStr)
  deriving DecidableEq, Repr

/-- `TypeModule::qualified`, src/lang/python.rs 113-121. -/
def Mod.toQualified : Mod → Mod
  | .unqualified p => .qualified p none
  | other => other

/-- `TypeModule::with_alias`, src/lang/python.rs 123-133. -/
def Mod.withAlias (a : ItemStr) : Mod → Mod
  | .qualified p _ => .qualified p (some a)
  | .unqualified p => .qualified p (some a)

/-- `import`, src/lang/python.rs 382-394. -/
def import_ (p name : ItemStr) : Import := .object (.unqualified p) name none

/-- `Import::with_alias`, src/lang/python.rs 173-181 (objects), and
`ImportModule::with_alias`, 279-287. -/
def Import.withAlias (a : ItemStr) : Import → Import
  | .object m n _ => .object m n (some a)
  | .module p _ => .module p (some a)

/-- `Import::qualified`, src/lang/python.rs 204-209. -/
def Import.qualified : Import → Import
  | .object m n a => .object m.toQualified n a
  | other => other

/-- `Import::with_module_alias`, src/lang/python.rs 234-242. -/
def Import.withModuleAlias (b : ItemStr) : Import → Import
  | .object m n a => .object (m.withAlias b) n a
  | other => other

/-- `LangItem::format`, src/lang/python.rs 60-86. -/
def Import.format : Import → List Str
  | .object m n a =>
    (match m with
      | .qualified p alias => [(alias.getD p).text, ".".toList]
      | .unqualified _ => []) ++ [(a.getD n).text]
  | .module p a => [(a.getD p).text]

/-- `imported_from` and `imports` of `Python::imports`. -/
structure Sets where
  from_ : List (ItemStr × List (ItemStr × Option ItemStr))
  imports : List (ItemStr × Option ItemStr)

/-- One round of the loop, src/lang/python.rs 295-316. -/
def addImport (s : Sets) : Import → Sets
  | .object (.qualified p alias) _ _ => { s with imports := setInsert (p, alias) s.imports }
  | .object (.unqualified p) name alias =>
    { s with from_ := mapModify p [] (setInsert (name, alias)) s.from_ }
  | .module p alias => { s with imports := setInsert (p, alias) s.imports }

/-- The sets after the loop. -/
def sets (imports : List Import) : Sets := imports.foldl addImport ⟨[], []⟩

/-- `$name$(if let Some(a) = alias => $[' ']as $a)`, src/lang/python.rs 327 and
345. -/
def nameBits : ItemStr × Option ItemStr → List Bit
  | (n, some a) => [.lit n, .space, word "as", .space, .lit a]
  | (n, none) => [.lit n]

/-- `join (, )`. -/
def joinBits : List (List Bit) → List Bit
  | [] => []
  | [l] => l
  | l :: r => l ++ [word ",", .space] ++ joinBits r

/-- A `from` line, src/lang/python.rs 330-338: with one name and with several the
macro calls are the same. -/
def fromBits (e : ItemStr × List (ItemStr × Option ItemStr)) : List Bit :=
  [word "from", .space, .lit e.1, .space, word "import", .space] ++ joinBits (e.2.map nameBits)

/-- An `import` line, src/lang/python.rs 344-346. -/
def importBits (e : ItemStr × Option ItemStr) : List Bit := [word "import", .space] ++ nameBits e

/-- `Python::imports`, src/lang/python.rs 291-350. -/
def importCalls (imports : List Import) : List (Item Import) :=
  let s := sets imports
  if s.from_.isEmpty && s.imports.isEmpty then []
  else s.from_.flatMap (fun e => .push :: bitItems (fromBits e)) ++
    s.imports.flatMap (fun e => .push :: bitItems (importBits e)) ++ [.line]

/-- The header of `format_file`, src/lang/python.rs 50-51. -/
def header (tokens : Tokens Import) : Tokens Import :=
  Tokens.new.extend (importCalls tokens.walkImports)

/-- The callbacks. -/
def lang : Lang Import := pythonLang Import.format

/-- `format_file`, src/lang/python.rs 45-56. -/
def file (tokens : Tokens Import) : List (List (Item Import)) :=
  [(header tokens).items, tokens.items]

end Python

/-! ## Java, src/lang/java/mod.rs -/

namespace Java

/-- `Import`, src/lang/java/mod.rs 165-170. -/
structure Import where
  package : ItemStr
  name : ItemStr
  deriving DecidableEq, Repr

/-- `JAVA_LANG`, src/lang/java/mod.rs 104. -/
def javaLangPkg : Str := "java.lang".toList

/-- `imported`: simple name to package, src/lang/java/mod.rs 109-112. -/
abbrev Imported := List (Str × Str)

/-- `LangItem::format`, src/lang/java/mod.rs 88-100. -/
def Import.format (package : Option ItemStr) (imported : Imported) (i : Import) : List Str :=
  (if i.package.text ≠ javaLangPkg ∧ mapGet i.name.text imported ≠ some i.package.text ∧
      package.map ItemStr.text ≠ some i.package.text
    then [i.package.text, ".".toList] else []) ++ [i.name.text]

/-- One round of the loop, src/lang/java/mod.rs 191-208: the map, and the lines
so far. -/
def addImport (package : Option ItemStr) (s : Imported × List (List Bit))
    (e : ItemStr × ItemStr) : Imported × List (List Bit) :=
  if (mapGet e.2.text s.1).isSome then s
  else if e.1.text = javaLangPkg then s
  else if some e.1.text = package.map ItemStr.text then s
  else (mapInsert e.2.text e.1.text s.1,
    s.2 ++ [[word "import", .space, .lit e.1, boxed ".", .lit e.2, word ";"]])

/-- The state after the loop. -/
def resolved (package : Option ItemStr) (imports : List Import) : Imported × List (List Bit) :=
  (setOf (imports.map (fun i => (i.package, i.name)))).foldl (addImport package) ([], [])

/-- `Java::imports`, src/lang/java/mod.rs 173-211. Each line is built as a stream
of its own and appended (204). -/
def importCalls (package : Option ItemStr) (imports : List Import) : List (Item Import) :=
  if imports.isEmpty then []
  else (resolved package imports).2.flatMap
    (fun l => (Tokens.fromIter (bitItems l)).items ++ [.push]) ++ [.line]

/-- The header of `format_file`, src/lang/java/mod.rs 72-80. -/
def header (package : Option ItemStr) (tokens : Tokens Import) : Tokens Import :=
  let h := match package with
    | some p => (Tokens.new : Tokens Import).extend
        (bitItems [word "package", .space, .lit p, word ";"] ++ [Item.line])
    | none => Tokens.new
  h.extend (importCalls package tokens.walkImports)

/-- The callbacks: formatting of items uses what `imports` has recorded. -/
def lang (package : Option ItemStr) (tokens : Tokens Import) : Lang Import :=
  javaLang (Import.format package (resolved package tokens.walkImports).1)

/-- `format_file`, src/lang/java/mod.rs 67-84. -/
def file (package : Option ItemStr) (tokens : Tokens Import) : List (List (Item Import)) :=
  [(header package tokens).items, tokens.items]

end Java

/-! ## C#, src/lang/csharp/mod.rs -/

namespace Csharp

/-- `Import`, src/lang/csharp/mod.rs 151-158. -/
structure Import where
  ns : ItemStr
  name : ItemStr
  qualified : Bool
  deriving DecidableEq, Repr

/-- `imported_names`: name to namespace, src/lang/csharp/mod.rs 120-126. -/
abbrev Imported := List (Str × Str)

/-- `is_qualified`, src/lang/csharp/mod.rs 94-110. -/
def isQualified (ns : Option ItemStr) (imported : Imported) (namespace_ name : Str) : Bool :=
  if ns.map ItemStr.text = some namespace_ then false
  else match mapGet name imported with
    | some i => i ≠ namespace_
    | none => false

/-- `LangItem::format`, src/lang/csharp/mod.rs 80-111. -/
def Import.format (ns : Option ItemStr) (imported : Imported) (i : Import) : List Str :=
  (if i.qualified || isQualified ns imported i.ns.text i.name.text
    then [i.ns.text, ".".toList] else []) ++ [i.name.text]

/-- State of the loop: `imported_names`, `imported`, and the lines so far. -/
structure State where
  names : Imported
  imported : List Str
  lines : List (List Bit)

/-- One round of the loop, src/lang/csharp/mod.rs 190-210. -/
def addImport (ns : Option ItemStr) (s : State) (e : Str × Str) : State :=
  if some e.1 = ns.map ItemStr.text then s
  else if (mapGet e.2 s.names).isSome then s
  else if e.1 ∈ s.imported then { s with names := mapInsert e.2 e.1 s.names }
  else ⟨mapInsert e.2 e.1 s.names, setInsert e.1 s.imported,
    s.lines ++ [[word "using", .space, .lit (.box e.1), word ";"]]⟩

/-- The state after the loop. -/
def resolved (ns : Option ItemStr) (imports : List Import) : State :=
  (setOf (imports.map (fun i => (i.ns.text, i.name.text)))).foldl (addImport ns) ⟨[], [], []⟩

/-- `Csharp::imports`, src/lang/csharp/mod.rs 172-213. -/
def importCalls (ns : Option ItemStr) (imports : List Import) : List (Item Import) :=
  if imports.isEmpty then []
  else (resolved ns imports).lines.flatMap (fun l => bitItems l ++ [.push]) ++ [.line]

/-- The imports part of `format_file`, src/lang/csharp/mod.rs 56-60. -/
def header (ns : Option ItemStr) (tokens : Tokens Import) : Tokens Import :=
  Tokens.new.extend (importCalls ns tokens.walkImports)

/-- The callbacks. -/
def lang (ns : Option ItemStr) (tokens : Tokens Import) : Lang Import :=
  csharpLang (Import.format ns (resolved ns tokens.walkImports).names)

/-- `format_file`, src/lang/csharp/mod.rs 51-76. With a namespace the body is
appended to the header stream, one level in, between braces. -/
def file (ns : Option ItemStr) (tokens : Tokens Import) : List (List (Item Import)) :=
  match ns with
  | some n =>
    [((((header ns tokens).extend (bitItems [word "namespace", .space, .lit n, .space, word "{"] ++
      [Item.indentation 1])).appendTokens tokens).extend
      (Item.indentation (-1) :: bitItems [word "}"])).items]
  | none => [(header ns tokens).items, tokens.items]

end Csharp

/-! ## JavaScript, src/lang/js.rs -/

namespace Js

/-- A component of a `RelativePath`. -/
inductive Component where
  | curDir
  | parentDir
  | normal (s : Str)
  deriving DecidableEq, Repr

/-- `Module`, src/lang/js.rs 385-394. A `RelativePathBuf` is given by its
components, which is what its equality and order look at. -/
inductive Mod where
  | path (p : List Component)
  | global (s : ItemStr)
  deriving DecidableEq, Repr

/-- `ImportKind`, src/lang/js.rs 250-256. -/
inductive Kind where
  | named
  | default
  | wildcard
  deriving DecidableEq, Repr

/-- `Import`, src/lang/js.rs 258-277. -/
structure Import where
  kind : Kind
  module : Mod
  name : ItemStr
  alias : Option ItemStr
  deriving DecidableEq, Repr

/-- `Import::with_alias`, src/lang/js.rs 314-323. -/
def Import.withAlias (i : Import) (a : ItemStr) : Import :=
  { i with kind := .named, alias := some a }

/-- `Import::into_default`, src/lang/js.rs 346-352. -/
def Import.intoDefault (i : Import) : Import := { i with kind := .default, alias := none }

/-- `Import::into_wildcard`, src/lang/js.rs 375-381. -/
def Import.intoWildcard (i : Import) : Import := { i with kind := .wildcard, alias := none }

/-- `LangItem::format`, src/lang/js.rs 175-182. -/
def Import.format (i : Import) : List Str :=
  [(match i.kind with
    | .named => (i.alias.getD i.name).text
    | _ => i.name.text)]

/-- Derived order of components. -/
instance : Ord Component where
  compare
    | .curDir, .curDir => .eq
    | .curDir, _ => .lt
    | _, .curDir => .gt
    | .parentDir, .parentDir => .eq
    | .parentDir, _ => .lt
    | _, .parentDir => .gt
    | .normal a, .normal b => compare a b

/-- Derived order of modules. -/
instance : Ord Mod where
  compare
    | .path a, .path b => compare a b
    | .path _, .global _ => .lt
    | .global _, .path _ => .gt
    | .global a, .global b => compare a b

/-- `ImportedElement`, src/lang/js.rs 502-506. -/
inductive Element where
  | plain (name : ItemStr)
  | aliased (name alias : ItemStr)
  deriving DecidableEq, Repr

/-- Derived order of elements. -/
instance : Ord Element where
  compare
    | .plain a, .plain b => compare a b
    | .plain _, .aliased _ _ => .lt
    | .aliased _ _, .plain _ => .gt
    | .aliased a b, .aliased c d => compare (a, b) (c, d)

/-- `ResolvedModule`, src/lang/js.rs 496-500. -/
structure Resolved where
  defaultImport : Option ItemStr
  set : List Element
  deriving DecidableEq, Repr

/-- `modules` and `wildcards`, src/lang/js.rs 420-421. -/
structure Sets where
  modules : List (Mod × Resolved)
  wildcards : List (Mod × ItemStr)

/-- One round of the loop, src/lang/js.rs 423-441. -/
def addImport (s : Sets) (i : Import) : Sets :=
  match i.kind with
  | .named =>
    let el := match i.alias with
      | none => Element.plain i.name
      | some a => .aliased i.name a
    ⟨mapModify i.module ⟨none, []⟩ (fun r => ⟨r.defaultImport, setInsert el r.set⟩) s.modules,
      s.wildcards⟩
  | .default =>
    ⟨mapModify i.module ⟨none, []⟩ (fun r => ⟨some i.name, r.set⟩) s.modules, s.wildcards⟩
  | .wildcard => { s with wildcards := setInsert (i.module, i.name) s.wildcards }

/-- The sets after the loop. -/
def sets (imports : List Import) : Sets := imports.foldl addImport ⟨[], []⟩

/-- `render_from`, src/lang/js.rs 508-516. `rel` gives the text for a path: its
own text, or the one relative to the configured module path (computed by the
`relative_path` crate, `Js.pathFrom`). -/
def fromText (rel : List Component → Str) : Mod → ItemStr
  | .global s => s
  | .path p => .box (rel p)

/-- A wildcard line, src/lang/js.rs 449-451. -/
def wildcardBits (rel : List Component → Str) (e : Mod × ItemStr) : List Bit :=
  [word "import", .space, word "*", .space, word "as", .space, .lit e.2, .space, word "from", .space,
    .quoted (fromText rel e.1), word ";"]

/-- An imported element, src/lang/js.rs 473-480. -/
def Element.bits : Element → List Bit
  | .plain n => [.lit n]
  | .aliased n a => [.lit n, .space, word "as", .space, .lit a]

/-- The elements between braces, src/lang/js.rs 470-486. -/
def elementsBits : List Element → List Bit
  | [] => []
  | [e] => e.bits
  | e :: r => e.bits ++ [boxed ",", .space] ++ elementsBits r

/-- A module line, src/lang/js.rs 456-491. -/
def moduleBits (rel : List Component → Str) (e : Mod × Resolved) : List Bit :=
  [word "import", .space] ++
  (match e.2.defaultImport with
    | some d => .lit d :: (if e.2.set.isEmpty then [] else [boxed ",", .space])
    | none => []) ++
  (if e.2.set.isEmpty then [] else [boxed "{"] ++ elementsBits e.2.set ++ [boxed "}"]) ++
  [.space, word "from", .space, .quoted (fromText rel e.1), word ";"]

/-- `JavaScript::imports`, src/lang/js.rs 416-517. -/
def importCalls (rel : List Component → Str) (imports : List Import) : List (Item Import) :=
  let s := sets imports
  if s.modules.isEmpty && s.wildcards.isEmpty then []
  else s.wildcards.flatMap (fun e => .push :: bitItems (wildcardBits rel e)) ++
    s.modules.flatMap (fun e => .push :: bitItems (moduleBits rel e)) ++ [.line]

/-- The header of `format_file`, src/lang/js.rs 165-166. -/
def header (rel : List Component → Str) (tokens : Tokens Import) : Tokens Import :=
  Tokens.new.extend (importCalls rel tokens.walkImports)

/-- The callbacks. -/
def lang : Lang Import := jsLang Import.format

/-- `format_file`, src/lang/js.rs 160-172. -/
def file (rel : List Component → Str) (tokens : Tokens Import) : List (List (Item Import)) :=
  [(header rel tokens).items, tokens.items]

end Js

end Genco
