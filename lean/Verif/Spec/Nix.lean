import Verif.Model.Nix
import Verif.Spec.Shift
import Verif.Spec.Files
import Verif.Spec.Tokens

/-!
# Declarations of a Nix file

A file is an expression, possibly below `{ a, b, ... }:` (a function whose
arguments are `a` and `b`), `with e;` (the attributes of `e` are in scope) and
`let … in` with bindings `inherit (e) n;` (`n` is the attribute `n` of `e`) and
`n = e;`. All bindings of a `let` see each other.
-/

set_option autoImplicit false

namespace Genco.Spec.NixFile

open Genco.Nix

inductive Binding where
  | inherit (path name : Str)
  /-- A value, given by its lines. -/
  | value (name : Str) (lines : List Str)
  deriving DecidableEq, Repr

def Binding.lines : Binding → List Str
  | .inherit p n => ["inherit (".toList ++ p ++ ") ".toList ++ n ++ [';']]
  | .value n ls => attach (n ++ " = ".toList) [';'] ls

/-- What stands above the expression. -/
structure Decls where
  args : Option (List Str)
  withs : List Str
  lets : List Binding

/-- The function head. -/
def argLines (cfg : Config) : Option (List Str) → List Str
  | none => []
  | some as =>
    ["{".toList] ++ (as.map (· ++ [',']) ++ ["...".toList]).map (movedIn cfg 1) ++ ["}:".toList]

/-- The bindings. -/
def letLines (cfg : Config) (bs : List Binding) : List Str :=
  if bs = [] then []
  else ["let".toList] ++ (bs.flatMap Binding.lines).map (movedIn cfg 1) ++ ["in".toList]

def Decls.lines (cfg : Config) (d : Decls) : List Str :=
  paragraphs [argLines cfg d.args, d.withs.map (fun w => "with ".toList ++ w ++ [';']), letLines cfg d.lets]

/-- The import occurs in the stream, rendered or not. -/
def Occurs (i : Import) (v : Tokens Import) : Prop := i ∈ v.items.filterMap langOf

/-- A dotted path starts with the name. -/
def StartsAt (path name : Str) : Prop := '.' ∉ name ∧ (path = name ∨ ∃ r, path = name ++ '.' :: r)

/-- The value of a variable: properly nested, on lines of its own. -/
structure Expr (cfg : Config) (v : Tokens Import) : Prop where
  built : ∃ ds, v = history ds
  code : ∃ c : Code Import, c.items = v.items ∧ c.plain = true ∧ Whole (seen (c.acts Nix.lang cfg))
  first : ∃ x r, v.items = x :: r ∧ isWs x = false
  last : ∃ r x, v.items = r ++ [x] ∧ isWs x = false

/-- Everything the variables of the stream need to be laid out. -/
def Exprs (cfg : Config) (l : List Import) : Prop :=
  ∀ n v, Import.variable n v ∈ l → n.text ≠ [] ∧ Expr cfg v

/-- The import needs the function argument. -/
def NeedsArg (a : Str) : Import → Prop
  | .argument n => a = n.text
  | .inherit p _ => StartsAt p.text a
  | .variable _ _ => False
  | .with p _ => StartsAt p.text a

/-- Imports the file needs: the ones of the body, and the ones of the values of
variables it needs. -/
inductive Needed (l : List Import) : Import → Prop
  | used {i} : i ∈ l → Needed l i
  | inside {n v i} : Needed l (.variable n v) → Occurs i v → Needed l i

/-- The name rendered for an import is declared, with the meaning the import asks
for, and so is the argument the path starts with, if the file has arguments. -/
def Declared (cfg : Config) (d : Decls) (i : Import) : Prop :=
  (∀ as, d.args = some as → ∀ a, NeedsArg a i → a ∈ as) ∧
  match i with
  | .argument n => (Nix.lang.langItem i).flatten = n.text
  | .inherit p _ => Binding.inherit p.text (Nix.lang.langItem i).flatten ∈ d.lets
  | .variable _ v => ∃ ls, toVec Nix.lang cfg v.items = some ls ∧
      Binding.value (Nix.lang.langItem i).flatten ls ∈ d.lets
  | .with p n => p.text ∈ d.withs ∧ (Nix.lang.langItem i).flatten = n.text

end Genco.Spec.NixFile
