import Verif.Model.Item

/-!
# What names mean in Swift and C files

Swift: `import M` makes the names of the module `M` visible as they are. The module `Swift`
is imported by every file, and its names give way to the ones of other modules. A name of
two other modules is an error. C: `#include` makes the names a header declares visible, and
two different headers that declare one name are an error (headers that declare the same thing
twice are not considered). What modules and headers have is `exports`.
-/

set_option autoImplicit false

namespace Genco.Spec

/-- The module every Swift file imports. -/
def SwiftFile.standard : Str := "Swift".toList

/-- In a Swift file with these imports, the text `ref` names `name` of `module`. -/
def SwiftFile.Denotes (imports : List Str) (exports : Str → Str → Prop) (ref «module» name : Str) : Prop :=
  ref = name ∧ («module» ∈ imports ∨ «module» = SwiftFile.standard) ∧ exports «module» name ∧
    ∀ q, q ∈ imports ∨ q = SwiftFile.standard → exports q name →
      q = «module» ∨ q = SwiftFile.standard ∧ «module» ≠ SwiftFile.standard

/-- In a C file with these includes, the text `ref` names `name` of the header at the path, which is
looked up among the headers of the system or not. -/
def CFile.Denotes (includes : List (Str × Bool)) (exports : Str × Bool → Str → Prop) (ref : Str)
    (header : Str × Bool) (name : Str) : Prop :=
  ref = name ∧ header ∈ includes ∧ exports header name ∧ ∀ q ∈ includes, exports q name → q = header

end Genco.Spec
