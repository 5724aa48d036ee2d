import Verif.Model.Builders
import Verif.Spec.Rust
import Verif.Spec.Js
import Verif.Spec.Python
import Verif.Spec.Csharp
import Verif.Spec.Java

/-!
# What the methods of imports are for

How an import is declared and written, read off from the list of method calls.
-/

set_option autoImplicit false

namespace Genco.Spec.Builders

/-- The last of those that are some. -/
def lastSome {α β : Type} (f : α → Option β) (l : List α) : Option β := (l.filterMap f).getLast?

namespace Rust

open Genco.Rust RustFile

def moduleAlias? : Step → Option ItemStr
  | .withModuleAlias a => some a
  | _ => none

def alias? : Step → Option ItemStr
  | .withAlias a => some a
  | _ => none

/-- An alias is only possible for a name that is imported itself. -/
def mode? : Step → Option Mode
  | .withAlias _ => some .direct
  | .direct => some .direct
  | .qualified => some .qualified
  | .withModuleAlias _ => none

/-- The declarations and the text. The first alias of a module stays, and nothing else
counts any more; otherwise the last call that says how to import the name decides, then the
configuration; and of several aliases the last one is used. A module of one segment is
not declared. -/
inductive Written (c : Mode) (m n : ItemStr) (steps : List Step) : List Use → Str → Prop
  | moduleAlias (a r) (h : steps.filterMap moduleAlias? = a :: r) :
    Written c m n steps [.single m.text (some a.text)] (a.text ++ "::".toList ++ n.text)
  | direct (h : steps.filterMap moduleAlias? = []) (hm : (lastSome mode? steps).getD c = .direct)
      (hn : lastSome alias? steps = none) :
    Written c m n steps [.single (m.text ++ "::".toList ++ n.text) none] n.text
  | aliased (a) (h : steps.filterMap moduleAlias? = []) (hm : (lastSome mode? steps).getD c = .direct)
      (hn : lastSome alias? steps = some a) :
    Written c m n steps [.single (m.text ++ "::".toList ++ n.text) (some a.text)] a.text
  | qualified (s p) (h : steps.filterMap moduleAlias? = [])
      (hm : (lastSome mode? steps).getD c = .qualified) (hs : ':' ∉ s)
      (hp : m.text = p ++ "::".toList ++ s) :
    Written c m n steps [.single m.text none] (s ++ "::".toList ++ n.text)
  | crate (h : steps.filterMap moduleAlias? = []) (hm : (lastSome mode? steps).getD c = .qualified)
      (hs : ':' ∉ m.text) :
    Written c m n steps [] (m.text ++ "::".toList ++ n.text)

end Rust

namespace Js

open Genco.Js JsFile

/-- The last call decides. -/
def written (source : Str) (n : ItemStr) (steps : List Step) : Decl × Str :=
  match steps.getLast? with
  | none => (.clause none [(n.text, none)] source, n.text)
  | some (.withAlias a) => (.clause none [(n.text, some a.text)] source, a.text)
  | some .intoDefault => (.clause (some n.text) [] source, n.text)
  | some .intoWildcard => (.wildcard n.text source, n.text)

end Js

namespace Python

open Genco.Python PythonFile

def alias? : Step → Option ItemStr
  | .withAlias a => some a
  | _ => none

def moduleAlias? : Step → Option ItemStr
  | .withModuleAlias a => some a
  | _ => none

/-- The name is to be written with its module. -/
def qualifies : Step → Bool
  | .withAlias _ => false
  | _ => true

/-- The last aliases are used, and an alias of the module makes the name qualified. -/
def written (m n : ItemStr) (steps : List Step) : Stmt × Str :=
  let name := ((lastSome alias? steps).getD n).text
  if steps.any qualifies then
    (.import_ m.text ((lastSome moduleAlias? steps).map ItemStr.text),
      ((lastSome moduleAlias? steps).getD m).text ++ '.' :: name)
  else (.from_ m.text [(n.text, (lastSome alias? steps).map ItemStr.text)], name)

end Python

end Genco.Spec.Builders
