import Verif.Model.ImportsA
import Verif.Spec.Tokens
import Verif.Spec.Files
import Verif.Spec.Imports

/-!
# Imports of Go, C, Swift and Dart

The text of the declarations, and what references look like.
-/

set_option autoImplicit false

namespace Genco.Spec

variable {ι : Type}

/-- The string literal of a text in a language. -/
def stringLit (L : Lang ι) (s : Str) : Str :=
  (L.openQuote false).flatten ++ (L.writeQuoted s).flatten ++ (L.closeQuote false).flatten

/-- A keyword and an operand. Without operand there is no space after the keyword:
spaces at the end of a line are never written. -/
def command (keyword : String) (operand : Str) : Str :=
  if operand = [] then keyword.toList else keyword.toList ++ ' ' :: operand

/-- `s` is the part of `p` after the last `sep`. -/
def LastPart (sep : Char) (p s : Str) : Prop := sep ∉ s ∧ (p = s ∨ ∃ q, p = q ++ sep :: s)

/-- `s` is the part of `p` before the first `sep`. -/
def FirstPart (sep : Char) (p s : Str) : Prop := sep ∉ s ∧ (p = s ∨ ∃ q, p = s ++ sep :: q)

/-- All texts are stored the same way, boxed or static. -/
def SameStorage (strs : ι → List ItemStr) (l : List ι) : Prop :=
  (∀ i ∈ l, ∀ x ∈ strs i, ∃ s, x = .static s) ∨ (∀ i ∈ l, ∀ x ∈ strs i, ∃ s, x = .box s)

namespace GoFile

/-- `import "path"`. -/
def importLine (path : Str) : Str := command "import" (stringLit Go.lang path)

/-- `package name`. -/
def packageLine (name : Str) : Str := command "package" name

end GoFile

namespace CFile

/-- `#include <path>` for system headers, `#include "path"` for others. -/
def includeLine (path : Str) (system : Bool) : Str :=
  command "#include" (if system then '<' :: (path ++ ['>']) else stringLit C.lang path)

end CFile

namespace SwiftFile

/-- `import module`. -/
def importLine (module : Str) : Str := command "import" module

end SwiftFile

namespace DartFile

/-- ` as alias` if there is one. -/
def asClause : Option Str → Str
  | none => []
  | some a => " as ".toList ++ a

/-- `import "path";` or `import "path" as alias;`. -/
def importLine (path : Str) (a : Option Str) : Str :=
  command "import" (stringLit Dart.lang path ++ (asClause a ++ [';']))

/-- The library that is always visible. -/
def coreLibrary : Str := "dart:core".toList

end DartFile

end Genco.Spec
