import Verif.Spec.Simple

/-!
# What references mean in Go and Dart files

Go, "Import declarations" and "Qualified identifiers" of the language specification: an
import without a name binds the name the package at the path declares (`declared`), which
need not be the last segment of the path; two imports that bind one name are an error;
`package.Name` is the exported `Name` of the package bound to `package`.

Dart, "Imports" of the language specification: names of libraries imported without
prefix are visible as they are, names of the others behind their prefix; a prefix hides
imported names; a name of two libraries is an error, unless one of them is a library of
the system, whose names give way to the ones of other libraries. `dart:core` is imported
without prefix by every file. What a library has is `exports`. Names that libraries
take from others and export again are not considered.
-/

set_option autoImplicit false

namespace Genco.Spec

/-- In a Go file with these imports, the text `ref` names `name` of the package at `path`. -/
def GoFile.Denotes (imports : List Str) (declared : Str → Str) (ref path name : Str) : Prop :=
  ref = declared path ++ '.' :: name ∧ ∃ before after, imports = before ++ path :: after ∧
    ∀ q ∈ before ++ after, declared q ≠ declared path

/-- A library of the system. -/
def DartFile.System (path : Str) : Prop := ∃ r, path = "dart:".toList ++ r

/-- The library can be seen without prefix, or with this one. -/
def DartFile.Visible (imports : List (Str × Option Str)) (pre : Option Str) (path : Str) : Prop :=
  (path, pre) ∈ imports ∨ pre = none ∧ path = DartFile.coreLibrary

/-- Among the libraries that can be seen like this, the name is the one of `path`. -/
def DartFile.Selects (exports : Str → Str → Prop) (visible : Str → Prop) (path name : Str) : Prop :=
  visible path ∧ exports path name ∧
    ∀ q, visible q → exports q name → q = path ∨ DartFile.System q ∧ ¬ DartFile.System path

/-- In a Dart file with these imports, the text `ref` names `name` of the library at `path`. -/
inductive DartFile.Denotes (imports : List (Str × Option Str)) (exports : Str → Str → Prop) :
    Str → Str → Str → Prop where
  | plain (path name : Str) (hn : '.' ∉ name) (hp : ∀ q, (q, some name) ∉ imports)
      (h : DartFile.Selects exports (DartFile.Visible imports none) path name) :
      DartFile.Denotes imports exports name path name
  | prefixed (a path name : Str) (ha : '.' ∉ a) (hn : '.' ∉ name)
      (h : DartFile.Selects exports (DartFile.Visible imports (some a)) path name) :
      DartFile.Denotes imports exports (a ++ '.' :: name) path name

end Genco.Spec
