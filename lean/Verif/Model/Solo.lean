import Verif.Model.Config
import Verif.Model.ImportsB
import Verif.Model.Nix

/-!
# Streams rendered on their own

`Tokens::to_string`, `Tokens::to_vec` and `Tokens::format` (src/tokens/tokens.rs 545-552, 751-759,
856-864) take the `Format` of the language as it is given; the first two give the default one. Only the
formats of Java and C# have any content: what `format_file` has imported.
-/

set_option autoImplicit false

namespace Genco

/-- `Default for Config`, src/lang/rust.rs 161-167. -/
def Rust.defaultCfg : Rust.Cfg := .direct

/-- `Config::with_default_import`, src/lang/rust.rs 156-158. -/
def Rust.withDefaultImport (_ : Rust.Cfg) (mode : Rust.Mode) : Rust.Cfg := mode

/-- `Config::default()`, src/lang/java/mod.rs 115-119, derived: no package. -/
def Java.defaultPackage : Option ItemStr := none

/-- `Config::with_package`, src/lang/java/mod.rs 151-158. -/
def Java.withPackage (_ : Option ItemStr) (package : ItemStr) : Option ItemStr := some package

/-- The callbacks of Java with `Format::default()`, src/lang/java/mod.rs 108-112: nothing is imported. -/
def Java.soloLang (package : Option ItemStr) : Lang Java.Import := javaLang (Java.Import.format package [])

/-- `Config::default()`, src/lang/csharp/mod.rs 129-133, derived: no namespace. -/
def Csharp.defaultNs : Option ItemStr := none

/-- `Config::with_namespace`, src/lang/csharp/mod.rs 137-144. -/
def Csharp.withNamespace (_ : Option ItemStr) (ns : ItemStr) : Option ItemStr := some ns

/-- The callbacks of C# with `Format::default()`, src/lang/csharp/mod.rs 119-126: nothing is imported. -/
def Csharp.soloLang (ns : Option ItemStr) : Lang Csharp.Import := csharpLang (Csharp.Import.format ns [])

/-- `Config::default()`, src/lang/go.rs 121-124, derived: no package. -/
def Go.defaultPackage : Option ItemStr := none

/-- `Config::with_package`, src/lang/go.rs 128-132. -/
def Go.withPackage (_ : Option ItemStr) (package : ItemStr) : Option ItemStr := some package

/-- `Config::default()`, src/lang/nix.rs 108-111, derived: not scoped. -/
def Nix.defaultScoped : Bool := false

/-- `Config::with_scoped`, src/lang/nix.rs 115-117. -/
def Nix.withScoped (_ isScoped : Bool) : Bool := isScoped

/-- `Tokens::to_vec` in Java as it is called, src/tokens/tokens.rs 856-864. -/
def Java.snippet (t : Tokens Java.Import) : Option (List Str) := plainVec (Java.soloLang Java.defaultPackage) t.items

/-- `Tokens::to_file_vec` in Java as it is called, src/tokens/tokens.rs 818-825. -/
def Java.wholeFile (t : Tokens Java.Import) : Option (List Str) :=
  plainFileVec (Java.lang Java.defaultPackage t) (Java.file Java.defaultPackage t)

/-- `Tokens::to_vec` in C# as it is called, src/tokens/tokens.rs 856-864. -/
def Csharp.snippet (t : Tokens Csharp.Import) : Option (List Str) := plainVec (Csharp.soloLang Csharp.defaultNs) t.items

/-- `Tokens::to_file_vec` in C# as it is called, src/tokens/tokens.rs 818-825. -/
def Csharp.wholeFile (t : Tokens Csharp.Import) : Option (List Str) :=
  plainFileVec (Csharp.lang Csharp.defaultNs t) (Csharp.file Csharp.defaultNs t)

end Genco
