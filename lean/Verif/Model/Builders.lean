import Verif.Model.ImportsB
import Verif.Model.Nix

/-!
# Building imports

The functions that make imports, and the methods that change them, as far as they are not
in the models of the languages. A step is one call of a method; the steps of an import are
performed in the order they are written.
-/

set_option autoImplicit false

namespace Genco

namespace Rust

/-- The methods of `Import`, src/lang/rust.rs 263-388. -/
inductive Step where
  | withAlias (a : ItemStr)
  | withModuleAlias (a : ItemStr)
  | qualified
  | direct
  deriving DecidableEq, Repr

/-- One method call, src/lang/rust.rs 285-291, 318-323, 353-358, 383-388. -/
def Step.apply (i : Import) : Step → Import
  | .withAlias a => i.withAlias a
  | .withModuleAlias a => i.withModuleAlias a
  | .qualified => i.qualified
  | .direct => i.direct

/-- `rust::import(module, name)`, src/lang/rust.rs 701-714, and methods. -/
def build (module name : ItemStr) (steps : List Step) : Import := steps.foldl Step.apply (import_ module name)

end Rust

namespace Js

/-- `import`, src/lang/js.rs 553-564. -/
def import_ (module : Mod) (name : ItemStr) : Import := ⟨.named, module, name, none⟩

/-- `From<&str> for Module`, src/lang/js.rs 396-400. -/
def Mod.fromStr (s : Str) : Mod := .global (.box s)

/-- `From<String> for Module`, src/lang/js.rs 402-406. -/
def Mod.fromString (s : Str) : Mod := .global (.box s)

/-- `From<ItemStr> for Module`, src/lang/js.rs 408-412. -/
def Mod.fromItemStr (s : ItemStr) : Mod := .global s

/-- The methods of `Import`, src/lang/js.rs 279-382. -/
inductive Step where
  | withAlias (a : ItemStr)
  | intoDefault
  | intoWildcard
  deriving DecidableEq, Repr

/-- One method call, src/lang/js.rs 314-323, 346-352, 375-381. -/
def Step.apply (i : Import) : Step → Import
  | .withAlias a => i.withAlias a
  | .intoDefault => i.intoDefault
  | .intoWildcard => i.intoWildcard

/-- `js::import(module, name)`, src/lang/js.rs 553-564, and methods. -/
def build (module : Mod) (name : ItemStr) (steps : List Step) : Import :=
  steps.foldl Step.apply (import_ module name)

end Js

namespace Python

/-- `import_module`, src/lang/python.rs 420-428. -/
def importModule (p : ItemStr) : Import := .module p none

/-- The methods of `Import`, src/lang/python.rs 149-243. -/
inductive Step where
  | withAlias (a : ItemStr)
  | qualified
  | withModuleAlias (a : ItemStr)
  deriving DecidableEq, Repr

/-- One method call, src/lang/python.rs 173-181, 204-209, 234-242. -/
def Step.apply (i : Import) : Step → Import
  | .withAlias a => i.withAlias a
  | .qualified => i.qualified
  | .withModuleAlias a => i.withModuleAlias a

/-- `python::import(module, name)`, src/lang/python.rs 382-394, and methods. -/
def build (module name : ItemStr) (steps : List Step) : Import := steps.foldl Step.apply (import_ module name)

/-- `python::import_module(module)`, and calls of `with_alias` (src/lang/python.rs 279-287). -/
def buildModule (module : ItemStr) (aliases : List ItemStr) : Import :=
  aliases.foldl (fun i a => i.withAlias a) (importModule module)

end Python

namespace Csharp

/-- `import`, src/lang/csharp/mod.rs 245-255. -/
def import_ (ns name : ItemStr) : Import := ⟨ns, name, false⟩

/-- `Import::qualified`, src/lang/csharp/mod.rs 163-168. -/
def Import.toQualified (i : Import) : Import := { i with qualified := true }

/-- `csharp::import(namespace, name)`, and `qualified` so many times, src/lang/csharp/mod.rs 245-255, 163-168. -/
def build (ns name : ItemStr) : Nat → Import
  | 0 => import_ ns name
  | n + 1 => (build ns name n).toQualified

end Csharp

namespace Dart

/-- `import`, src/lang/dart/mod.rs 254-264. -/
def import_ (path name : ItemStr) : Import := ⟨path, name, none⟩

/-- `Import::with_alias`, src/lang/dart/mod.rs 182-187. -/
def Import.withAlias (i : Import) (a : ItemStr) : Import := { i with alias := some a }

/-- `dart::import(path, name)`, and calls of `with_alias`, src/lang/dart/mod.rs 254-264, 182-187. -/
def build (path name : ItemStr) (aliases : List ItemStr) : Import :=
  aliases.foldl Import.withAlias (import_ path name)

end Dart

namespace Go

/-- `import`, src/lang/go.rs 179-188. -/
def import_ (module name : ItemStr) : Import := ⟨module, name⟩

end Go

namespace Swift

/-- `import`, src/lang/swift.rs 136-145. -/
def import_ (module name : ItemStr) : Import := ⟨module, name⟩

end Swift

namespace Java

/-- `import`, src/lang/java/mod.rs 240-249. -/
def import_ (package name : ItemStr) : Import := ⟨package, name⟩

end Java

namespace C

/-- `include`, src/lang/c.rs 119-129. -/
def include_ (path item : ItemStr) : Import := ⟨path, item, false⟩

/-- `include_system`, src/lang/c.rs 154-164. -/
def includeSystem (path item : ItemStr) : Import := ⟨path, item, true⟩

end C

namespace Nix

/-- `argument`, src/lang/nix.rs 271-276. -/
def argument (name : ItemStr) : Import := .argument name

/-- `inherit`, src/lang/nix.rs 304-313. -/
def inherit_ (path name : ItemStr) : Import := .inherit path name

/-- `variable`, src/lang/nix.rs 352-361. -/
def variable_ (name : ItemStr) (value : Tokens Import) : Import := .variable name value

/-- `with`, src/lang/nix.rs 388-397. -/
def with_ (arg name : ItemStr) : Import := .with arg name

end Nix

end Genco
