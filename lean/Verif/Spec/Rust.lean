import Verif.Model.ImportsA
import Verif.Spec.Tokens
import Verif.Spec.Files
import Verif.Spec.Imports

/-!
# Use declarations of Rust and what they bring into scope

Declarations as in the Rust reference ("Use declarations"): their text, the names
they bind, and how a path is looked up.
-/

set_option autoImplicit false

namespace Genco.Spec.RustFile

open Genco.Rust

/-- `use path;`, `use path as alias;` or `use path::{member, member as alias};`. -/
inductive Use where
  | single (path : Str) (alias : Option Str)
  | group (path : Str) (members : List (Str × Option Str))
  deriving DecidableEq, Repr

/-- `name` or `name as alias`. -/
def asText (name : Str) : Option Str → Str
  | some a => name ++ " as ".toList ++ a
  | none => name

/-- The text of a declaration. -/
def Use.text : Use → Str
  | .single p a => "use ".toList ++ asText p a ++ ";".toList
  | .group p ms =>
    "use ".toList ++ p ++ "::{".toList ++
      ", ".toList.intercalate (ms.map (fun m => asText m.1 m.2)) ++ "};".toList

/-- `s` is the last segment of the path `p`. -/
def LastSegment (p s : Str) : Prop := ':' ∉ s ∧ (p = s ∨ ∃ q, p = q ++ "::".toList ++ s)

/-- The declaration brings the local name `n` into scope for the full path `f`. In a
group, `self` stands for the path itself. -/
def Use.Binds : Use → Str → Str → Prop
  | .single p none, n, f => f = p ∧ LastSegment p n
  | .single p (some a), n, f => f = p ∧ n = a
  | .group p ms, n, f => ∃ m ∈ ms,
    if m.1 = "self".toList then
      f = p ∧ match m.2 with
        | some a => n = a
        | none => LastSegment p n
    else f = p ++ "::".toList ++ m.1 ∧ n = m.2.getD m.1

/-- The declaration written out as declarations of single paths. -/
def Use.parts : Use → List (Str × Option Str)
  | .single p a => [(p, a)]
  | .group p ms => ms.map (fun m =>
    if m.1 = "self".toList then (p, m.2) else (p ++ "::".toList ++ m.1, m.2))

/-- Some declaration binds the name. -/
def Bound (us : List Use) (n f : Str) : Prop := ∃ u ∈ us, u.Binds n f

/-- Looking up a path written in the file: its first segment through the
declarations (which must not disagree), or else as the name of a crate. -/
def Resolves (us : List Use) (ref full : Str) : Prop :=
  ∃ seg rest, ref = seg ++ rest ∧ ':' ∉ seg ∧ (rest = [] ∨ ∃ r, rest = "::".toList ++ r) ∧
    ((∃ p, Bound us seg p ∧ full = p ++ rest ∧ ∀ p', Bound us seg p' → p' = p) ∨
      ((∀ p, ¬ Bound us seg p) ∧ full = ref))

/-- The ways to import. -/
inductive Form where
  | direct (module : ItemStr)
  | qualified (module : ItemStr)
  | aliased (module alias : ItemStr)
  deriving DecidableEq, Repr

/-- The way an import asks for, given the configured default. -/
def form (c : Mode) (i : Import) : Form :=
  match i.module with
  | .aliased m a => .aliased m a
  | .module mode m =>
    match mode.getD c with
    | .direct => .direct m
    | .qualified => .qualified m

/-- The module of an import. -/
def moduleOf (i : Import) : ItemStr :=
  match i.module with
  | .aliased m _ => m
  | .module _ m => m

/-- What the import stands for. -/
def target (i : Import) : Str := (moduleOf i).text ++ "::".toList ++ i.name.text

/-- The import claims the local name `n` for the full path `f`. -/
def Claims (c : Mode) (i : Import) (n f : Str) : Prop :=
  match form c i with
  | .direct _ => n = (i.alias.getD i.name).text ∧ f = target i
  | .qualified m => LastSegment m.text n ∧ f = m.text
  | .aliased m a => n = a.text ∧ f = m.text

/-- Names and aliases are identifiers as far as it matters here: no colon, not
`self`; the module is a path whose last segment has no stray colon. -/
structure Proper (i : Import) : Prop where
  name : ':' ∉ i.name.text
  notSelf : i.name.text ≠ "self".toList
  alias : ∀ a, i.alias = some a → ':' ∉ a.text
  moduleAlias : ∀ m a, i.module = .aliased m a → ':' ∉ a.text
  module : ∃ s, LastSegment (moduleOf i).text s

/-- A declaration is needed: naming a module without `::` itself needs none. -/
def Needs (c : Mode) (i : Import) : Prop :=
  ∀ m, form c i = .qualified m → ∃ p s, m.text = p ++ "::".toList ++ s

/-- The texts of an import. -/
def strs (i : Import) : List ItemStr :=
  (match i.module with
    | .aliased m a => [m, a]
    | .module _ m => [m]) ++ [i.name] ++ i.alias.toList

/-- No space and no opening brace in any text. -/
def Clean (i : Import) : Prop := ∀ x ∈ strs i, ' ' ∉ x.text ∧ '{' ∉ x.text

/-- The part of the declarations an import asks for. -/
def part (c : Mode) (i : Import) : Str × Option Str :=
  match form c i with
  | .direct _ => (target i, i.alias.map ItemStr.text)
  | .qualified m => (m.text, none)
  | .aliased m a => (m.text, some a.text)

/-- No module that is named itself is also imported as item of another module. -/
def Apart (c : Mode) (l : List Import) : Prop :=
  ∀ i ∈ l, ∀ j ∈ l, ∀ m, form c i = .direct m → ∀ m', (form c j = .qualified m' ∨
    ∃ a, form c j = .aliased m' a) → target i ≠ m'.text

/-- The two imports are stored the same way: the same form, and if they name an
item, the same name and alias, each text stored alike. -/
def SameWay (c : Mode) (i j : Import) : Prop :=
  form c i = form c j ∧ ∀ m, form c i = .direct m → i.name = j.name ∧ i.alias = j.alias

end Genco.Spec.RustFile
