import Verif.Model.ImportsB
import Verif.Spec.Simple

/-!
# Import declarations of JavaScript and the names they bind

As in ECMAScript, "Imports": `import * as n from "m"` binds `n` to the module `m`;
`import d from "m"` binds `d` to the export `default`; `import {x, y as z} from "m"`
binds `x` and `z` to the exports `x` and `y`. No name may be bound twice.
-/

set_option autoImplicit false

namespace Genco.Spec.JsFile

open Genco.Js

inductive Decl where
  | wildcard (name source : Str)
  | clause (default_ : Option Str) (named : List (Str × Option Str)) (source : Str)
  deriving DecidableEq, Repr

/-- `name` or `name as alias`. -/
def asText (name : Str) : Option Str → Str
  | some a => name ++ " as ".toList ++ a
  | none => name

/-- `{x, y as z}`. -/
def braces (ns : List (Str × Option Str)) : Str :=
  '{' :: (", ".toList.intercalate (ns.map (fun n => asText n.1 n.2)) ++ ['}'])

/-- What stands between `import` and `from`. -/
def clauseText : Option Str → List (Str × Option Str) → Str
  | some d, [] => d
  | some d, ns => d ++ ", ".toList ++ braces ns
  | none, [] => []
  | none, ns => braces ns

/-- `import what from "source";`. -/
def line (what source : Str) : Str :=
  "import ".toList ++ what ++ " from ".toList ++ stringLit Js.lang source ++ [';']

def Decl.text : Decl → Str
  | .wildcard n s => line ("* as ".toList ++ n) s
  | .clause d ns s => line (clauseText d ns) s

/-- A module, or an export of it. -/
abbrev Value := Str × Option Str

/-- The names a declaration binds. -/
def Decl.bindings : Decl → List (Str × Value)
  | .wildcard n s => [(n, (s, none))]
  | .clause d ns s => d.toList.map (fun d => (d, (s, some "default".toList))) ++
      ns.map (fun n => (n.2.getD n.1, (s, some n.1)))

/-- The text of a module specifier; `rel` gives the one of a path. -/
def source (rel : List Component → Str) : Mod → Str
  | .global s => s.text
  | .path p => rel p

/-- What an import stands for. -/
def target (rel : List Component → Str) (i : Import) : Value :=
  (source rel i.module, match i.kind with
    | .named => some i.name.text
    | .default => some "default".toList
    | .wildcard => none)

/-- The name an import is to have in the file. -/
def localName (i : Import) : Str :=
  match i.kind, i.alias with
  | .named, some a => a.text
  | _, _ => i.name.text

/-- The same import. -/
def Same (i j : Import) : Prop :=
  i.kind = j.kind ∧ i.module = j.module ∧ i.name = j.name ∧ (i.kind = .named → i.alias = j.alias)

/-- Different imports have different names. -/
def NoClash (l : List Import) : Prop := ∀ i ∈ l, ∀ j ∈ l, localName i = localName j → Same i j

/-- A module has one name for its default export. -/
def OneDefault (l : List Import) : Prop :=
  ∀ i ∈ l, ∀ j ∈ l, i.kind = .default → j.kind = .default → i.module = j.module → i.name = j.name

/-- The import is bound: of the default names of a module only the first. -/
def Kept (l : List Import) (i : Import) : Prop :=
  i.kind = .default → (l.find? (fun j => j.kind = .default ∧ j.module = i.module)).map (·.name) = some i.name

/-- Different imports that are bound have different names. -/
def Distinct (l : List Import) : Prop :=
  ∀ i ∈ l, ∀ j ∈ l, Kept l i → Kept l j → localName i = localName j → Same i j

end Genco.Spec.JsFile
