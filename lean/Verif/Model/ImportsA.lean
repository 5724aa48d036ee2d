import Verif.Model.Header

/-!
# Imports of Rust, Go, C, Swift and Dart

The `imports` functions fill sets and maps from `tokens.walk_imports()` and then
append one line per entry. Every function here gives the items handed to the
header stream, one per call, in order; `Tokens.extend` performs the calls.
-/

set_option autoImplicit false

namespace Genco

/-! ## Rust, src/lang/rust.rs -/

namespace Rust

/-- `ImportMode`, src/lang/rust.rs 169-182. -/
inductive Mode where
  | direct
  | qualified
  deriving DecidableEq, Repr

/-- `Module`, src/lang/rust.rs 184-193. -/
inductive Mod where
  | module (mode : Option Mode) (module : ItemStr)
  | aliased (module : ItemStr) (alias : ItemStr)
  deriving DecidableEq, Repr

/-- `Import`, src/lang/rust.rs 250-261. -/
structure Import where
  module : Mod
  name : ItemStr
  alias : Option ItemStr
  deriving DecidableEq, Repr

/-- `import`, src/lang/rust.rs 701-714. -/
def import_ (module name : ItemStr) : Import := ⟨.module none module, name, none⟩

/-- `Module::into_module_aliased`, src/lang/rust.rs 198-209. -/
def Mod.intoModuleAliased (m : Mod) (alias : ItemStr) : Mod :=
  match m with
  | .module _ p => .aliased p alias
  | other => other

/-- `Module::into_aliased` (212-220) and `Module::direct` (225-233). -/
def Mod.direct : Mod → Mod
  | .module _ p => .module (some .direct) p
  | other => other

/-- `Module::qualified`, src/lang/rust.rs 239-247. -/
def Mod.qualified : Mod → Mod
  | .module _ p => .module (some .qualified) p
  | other => other

/-- `Import::with_alias`, src/lang/rust.rs 285-291. -/
def Import.withAlias (i : Import) (alias : ItemStr) : Import :=
  { i with module := i.module.direct, alias := some alias }

/-- `Import::with_module_alias`, src/lang/rust.rs 318-323. -/
def Import.withModuleAlias (i : Import) (alias : ItemStr) : Import :=
  { i with module := i.module.intoModuleAliased alias }

/-- `Import::qualified`, src/lang/rust.rs 353-358. -/
def Import.qualified (i : Import) : Import := { i with module := i.module.qualified }

/-- `Import::direct`, src/lang/rust.rs 383-388. -/
def Import.direct (i : Import) : Import := { i with module := i.module.direct }

/-- `Config`, src/lang/rust.rs 146-150: the default import mode. -/
abbrev Cfg := Mode

/-- `Import::write_direct`, src/lang/rust.rs 391-397. -/
def Import.writeDirect (i : Import) : List Str :=
  match i.alias with
  | some alias => [alias.text]
  | none => [i.name.text]

/-- `Import::write_prefixed`, src/lang/rust.rs 400-408. -/
def Import.writePrefixed (i : Import) (module : ItemStr) : List Str :=
  [lastSeg2 module.text, "::".toList, i.name.text]

/-- `LangItem::format` for `Import`, src/lang/rust.rs 107-138. -/
def Import.format (cfg : Cfg) (i : Import) : List Str :=
  match i.module with
  | .module (some .direct) _ => i.writeDirect
  | .module (some .qualified) module => i.writePrefixed module
  | .module none module =>
    match cfg with
    | .direct => i.writeDirect
    | .qualified => i.writePrefixed module
  | .aliased _ alias => [alias.text, "::".toList, i.name.text]

/-- The local `struct Import` of `Rust::imports`, src/lang/rust.rs 512-521. -/
structure Entry where
  selfImport : Bool
  selfAliases : List ItemStr
  names : List (ItemStr × Option ItemStr)
  deriving DecidableEq, Repr

/-- `Default for Import`, src/lang/rust.rs 513. -/
def Entry.default : Entry := ⟨false, [], []⟩

/-- `modules`, src/lang/rust.rs 418. -/
abbrev Modules := List (ItemStr × Entry)

/-- `modules.entry(module).or_default().names.insert(..)`, e.g.
src/lang/rust.rs 432-433. -/
def addName (module name : ItemStr) (alias : Option ItemStr) (m : Modules) : Modules :=
  mapModify module .default (fun e => { e with names := setInsert (name, alias) e.names }) m

/-- `modules.entry(module).or_default().self_import = true`, e.g.
src/lang/rust.rs 439-440. -/
def addSelf (module : ItemStr) (m : Modules) : Modules :=
  mapModify module .default (fun e => { e with selfImport := true }) m

/-- `modules.entry(module).or_default().self_aliases.insert(alias)`,
src/lang/rust.rs 456-457. -/
def addAlias (module alias : ItemStr) (m : Modules) : Modules :=
  mapModify module .default (fun e => { e with selfAliases := setInsert alias e.selfAliases }) m

/-- One round of the `while let` loop, src/lang/rust.rs 426-460. -/
def addImport (cfg : Cfg) (m : Modules) (i : Import) : Modules :=
  match i.module with
  | .module (some .direct) module => addName module i.name i.alias m
  | .module (some .qualified) module => addSelf module m
  | .module none module =>
    match cfg with
    | .direct => addName module i.name i.alias m
    | .qualified => addSelf module m
  | .aliased module alias => addAlias module alias m

/-- The map after the loop. -/
def modules (cfg : Cfg) (imports : List Import) : Modules := imports.foldl (addImport cfg) []

/-- `RenderItem`, src/lang/rust.rs 564-574. -/
inductive RItem where
  | self
  | selfAlias (alias : ItemStr)
  | name (name : ItemStr) (alias : Option ItemStr)
  deriving DecidableEq, Repr

/-- `ImportedIter`, src/lang/rust.rs 541-562, collected. -/
def Entry.iter (e : Entry) (module : ItemStr) : List RItem :=
  (if e.selfImport && hasSep2 module.text then [.self] else []) ++
  e.selfAliases.map .selfAlias ++ e.names.map (fun n => .name n.1 n.2)

/-- `RenderItem::render`, src/lang/rust.rs 577-595. -/
def RItem.bits : RItem → List Bit
  | .self => [word "self"]
  | .selfAlias a => [word "self", .space, word "as", .space, .lit a]
  | .name n (some a) => [.lit n, .space, word "as", .space, .lit a]
  | .name n none => [.lit n]

/-- The line for one module, src/lang/rust.rs 473-502. -/
def lineBits (m : ItemStr) : List RItem → List Bit
  | [] => []
  | [.self] => [word "use", .space, .lit m, word ";"]
  | [.selfAlias a] => [word "use", .space, .lit m, .space, word "as", .space, .lit a, word ";"]
  | [.name n (some a)] =>
    [word "use", .space, .lit m, word "::", .lit n, .space, word "as", .space, .lit a, word ";"]
  | [.name n none] => [word "use", .space, .lit m, word "::", .lit n, word ";"]
  | first :: rest =>
    [word "use", .space, .lit m, word "::{"] ++ first.bits ++
    rest.flatMap (fun i => word "," :: .space :: i.bits) ++ [word "};"]

/-- `Rust::imports`, src/lang/rust.rs 412-597: the calls on `out`. -/
def importCalls (cfg : Cfg) (imports : List Import) : List (Item Import) :=
  let lines := (modules cfg imports).filterMap (fun e =>
    match e.2.iter e.1 with
    | [] => none
    | r => some (lineBits e.1 r))
  lines.flatMap (fun l => .push :: bitItems l) ++ if lines.isEmpty then [] else [.line]

/-- The header stream of `format_file`, src/lang/rust.rs 96-97. -/
def header (cfg : Cfg) (tokens : Tokens Import) : Tokens Import :=
  Tokens.new.extend (importCalls cfg tokens.walkImports)

/-- The callbacks, with the item formatting of 107-138. -/
def lang (cfg : Cfg) : Lang Import := rustLang (Import.format cfg)

/-- The streams `format_file` formats, src/lang/rust.rs 91-103. -/
def file (cfg : Cfg) (tokens : Tokens Import) : List (List (Item Import)) :=
  [(header cfg tokens).items, tokens.items]

end Rust

/-! ## Go, src/lang/go.rs -/

namespace Go

/-- `Import`, src/lang/go.rs 108-114. -/
structure Import where
  module : ItemStr
  name : ItemStr
  deriving DecidableEq, Repr

/-- `LangItem::format`, src/lang/go.rs 93-101. -/
def Import.format (i : Import) : List Str :=
  [lastSeg1 '/' i.module.text, ".".toList, i.name.text]

/-- `Go::imports`, src/lang/go.rs 136-153. -/
def importCalls (imports : List Import) : List (Item Import) :=
  let modules := setOf (imports.map Import.module)
  if modules.isEmpty then []
  else modules.flatMap (fun m => bitItems [word "import", .space, .quoted m] ++ [.push]) ++ [.line]

/-- The header of `format_file`, src/lang/go.rs 77-84; `package` is the
configured package. -/
def header (package : Option ItemStr) (tokens : Tokens Import) : Tokens Import :=
  let h := match package with
    | some p => (Tokens.new : Tokens Import).extend
        (bitItems [word "package", .space, .lit p] ++ [Item.line])
    | none => Tokens.new
  h.extend (importCalls tokens.walkImports)

/-- The callbacks. -/
def lang : Lang Import := goLang Import.format

/-- `format_file`, src/lang/go.rs 72-89. -/
def file (package : Option ItemStr) (tokens : Tokens Import) : List (List (Item Import)) :=
  [(header package tokens).items, tokens.items]

end Go

/-! ## C, src/lang/c.rs -/

namespace C

/-- `Import`, src/lang/c.rs 53-61. -/
structure Import where
  path : ItemStr
  item : ItemStr
  system : Bool
  deriving DecidableEq, Repr

/-- `LangItem::format`, src/lang/c.rs 42-45. -/
def Import.format (i : Import) : List Str := [i.item.text]

/-- One line, src/lang/c.rs 84-88. -/
def lineBits : ItemStr × Bool → List Bit
  | (file, true) => [word "#include", .space, word "<", .lit file, word ">"]
  | (file, false) => [word "#include", .space, .quoted file]

/-- `C::imports`, src/lang/c.rs 72-93. -/
def importCalls (imports : List Import) : List (Item Import) :=
  let includes := setOf (imports.map (fun i => (i.path, i.system)))
  if includes.isEmpty then []
  else includes.flatMap (fun l => bitItems (lineBits l) ++ [.push]) ++ [.line]

/-- The header of `format_file`, src/lang/c.rs 31-33. -/
def header (tokens : Tokens Import) : Tokens Import :=
  Tokens.new.extend (importCalls tokens.walkImports)

/-- The callbacks. -/
def lang : Lang Import := cLang Import.format

/-- `format_file`, src/lang/c.rs 26-38. -/
def file (tokens : Tokens Import) : List (List (Item Import)) :=
  [(header tokens).items, tokens.items]

end C

/-! ## Swift, src/lang/swift.rs -/

namespace Swift

/-- `Import`, src/lang/swift.rs 88-94. -/
structure Import where
  module : ItemStr
  name : ItemStr
  deriving DecidableEq, Repr

/-- `LangItem::format`, src/lang/swift.rs 71-73. -/
def Import.format (i : Import) : List Str := [i.name.text]

/-- `Swift::imports`, src/lang/swift.rs 97-114; the line call is made even
without imports. -/
def importCalls (imports : List Import) : List (Item Import) :=
  (setOf (imports.map Import.module)).flatMap
    (fun m => .push :: bitItems [word "import", .space, .lit m]) ++ [.line]

/-- The header of `format_file`, src/lang/swift.rs 61-62. -/
def header (tokens : Tokens Import) : Tokens Import :=
  Tokens.new.extend (importCalls tokens.walkImports)

/-- The callbacks. -/
def lang : Lang Import := swiftLang Import.format

/-- `format_file`, src/lang/swift.rs 56-67. -/
def file (tokens : Tokens Import) : List (List (Item Import)) :=
  [(header tokens).items, tokens.items]

end Swift

/-! ## Dart, src/lang/dart/mod.rs -/

namespace Dart

/-- `Import`, src/lang/dart/mod.rs 170-178. -/
structure Import where
  path : ItemStr
  name : ItemStr
  alias : Option ItemStr
  deriving DecidableEq, Repr

/-- `LangItem::format`, src/lang/dart/mod.rs 147-155. -/
def Import.format (i : Import) : List Str :=
  (match i.alias with
    | some a => [a.text, ".".toList]
    | none => []) ++ [i.name.text]

/-- `DART_CORE`, src/lang/dart/mod.rs 50. -/
def core : Str := "dart:core".toList

/-- One line, src/lang/dart/mod.rs 208-212. -/
def lineBits : ItemStr × Option ItemStr → List Bit
  | (name, some alias) =>
    [word "import", .space, .quoted name, .space, word "as", .space, .lit alias, word ";"]
  | (name, none) => [word "import", .space, .quoted name, word ";"]

/-- `Dart::imports`, src/lang/dart/mod.rs 192-218. -/
def importCalls (imports : List Import) : List (Item Import) :=
  let modules := setOf ((imports.filter (fun i => i.path.text ≠ core)).map
    (fun i => (i.path, i.alias)))
  if modules.isEmpty then []
  else modules.flatMap (fun l => bitItems (lineBits l) ++ [.push]) ++ [.line]

/-- The header of `format_file`, src/lang/dart/mod.rs 137-138. -/
def header (tokens : Tokens Import) : Tokens Import :=
  Tokens.new.extend (importCalls tokens.walkImports)

/-- The callbacks. -/
def lang : Lang Import := dartLang Import.format

/-- `format_file`, src/lang/dart/mod.rs 132-143. -/
def file (tokens : Tokens Import) : List (List (Item Import)) :=
  [(header tokens).items, tokens.items]

end Dart

end Genco
