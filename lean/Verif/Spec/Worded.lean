import Verif.Spec.Rust
import Verif.Spec.Python
import Verif.Spec.Js
import Verif.Spec.Java
import Verif.Spec.Nix

/-!
# Headers in terms of texts

What is declared, sorted by text: a list that is sorted and has given elements is determined
by them.
-/

set_option autoImplicit false

namespace Genco.Spec

/-- The list has exactly the elements with the property, each once, sorted. -/
def Lists {α : Type} [Ord α] (l : List α) (P : α → Prop) : Prop := Sorted l ∧ ∀ x, x ∈ l ↔ P x

namespace RustFile

open Genco.Rust

/-- What is imported of one module: itself, itself under other names, items of it. -/
structure Group where
  module : Str
  self : Bool
  aliases : List Str
  names : List (Str × Option Str)

/-- The members in braces. -/
def Group.members (g : Group) : List (Str × Option Str) :=
  (if g.self then [("self".toList, none)] else []) ++ g.aliases.map (fun a => ("self".toList, some a)) ++ g.names

/-- The members as full paths. -/
def Group.paths (g : Group) : List (Str × Option Str) :=
  (if g.self then [(g.module, none)] else []) ++ g.aliases.map (fun a => (g.module, some a)) ++
    g.names.map (fun n => (g.module ++ "::".toList ++ n.1, n.2))

/-- The declaration: without braces if there is one member. -/
def Group.use (g : Group) : Use :=
  match g.paths with
  | [p] => .single p.1 p.2
  | _ => .group g.module g.members

/-- The group has what the imports ask for. -/
structure Group.For (g : Group) (c : Mode) (l : List Import) : Prop where
  self : g.self = true ↔ ∃ i ∈ l, ∃ m, form c i = .qualified m ∧ m.text = g.module ∧ Needs c i
  aliases : Lists g.aliases fun x => ∃ i ∈ l, ∃ m a, form c i = .aliased m a ∧ m.text = g.module ∧ a.text = x
  names : Lists g.names fun x => ∃ i ∈ l, ∃ m, form c i = .direct m ∧ m.text = g.module ∧
    (i.name.text, i.alias.map ItemStr.text) = x

end RustFile

namespace JsFile

open Genco.Js

/-- The text of a module that is not given by a path. -/
def specifier : Mod → Option Str
  | .global s => some s.text
  | .path _ => none

/-- What is imported of one module: the default export and others, under their names or
under other names. -/
structure Clause where
  module : Str
  default_ : Option Str
  plain : List Str
  aliased : List (Str × Str)

/-- The declaration. -/
def Clause.decl (k : Clause) : Decl :=
  .clause k.default_ (k.plain.map (fun n => (n, none)) ++ k.aliased.map (fun n => (n.1, some n.2))) k.module

/-- The clause has what the imports ask for. Of several names for the default export the
first is taken. -/
structure Clause.For (k : Clause) (l : List Import) : Prop where
  default_ : k.default_ =
    (l.find? (fun i => i.kind = .default ∧ specifier i.module = some k.module)).map (·.name.text)
  plain : Lists k.plain fun x => ∃ i ∈ l, i.kind = .named ∧ specifier i.module = some k.module ∧
    i.alias = none ∧ i.name.text = x
  aliased : Lists k.aliased fun x => ∃ i ∈ l, i.kind = .named ∧ specifier i.module = some k.module ∧
    i.name.text = x.1 ∧ ∃ a, i.alias = some a ∧ a.text = x.2

end JsFile

end Genco.Spec
