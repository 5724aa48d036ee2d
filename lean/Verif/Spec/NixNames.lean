import Verif.Spec.Nix

/-!
# What names mean in a Nix file

As in the Nix manual, "Language constructs": a name bound by the `let` means what the
binding says, and two bindings of a name are an error; other names mean the argument
of the function of that name, or else what the name means outside of the file
(`outer`, which has the builtins); only names that are not bound like this are looked
up in the scopes of `with`, from the innermost one, which is the last, to the
outermost. Which attributes a path has is `attrs`. The path of an `inherit` is read
like names of the body, the path of a scope is read above the `let`.
-/

set_option autoImplicit false

namespace Genco.Spec.NixFile

open Genco.Nix

/-- What a name can mean. -/
inductive Meaning where
  /-- Something given from outside: an argument, or a name known outside of the file. -/
  | given (name : Str)
  /-- An attribute of the set a path leads to. -/
  | attribute (path name : Str)
  /-- The value of an expression, given by its lines. -/
  | value (lines : List Str)
  deriving DecidableEq, Repr

def Binding.name : Binding → Str
  | .inherit _ n => n
  | .value n _ => n

def Binding.meaning : Binding → Meaning
  | .inherit p n => .attribute p n
  | .value _ ls => .value ls

/-- The name is bound by no `let` and is no argument. -/
def Decls.Unbound (d : Decls) (n : Str) : Prop :=
  (∀ b ∈ d.lets, b.name ≠ n) ∧ ∀ as, d.args = some as → n ∉ as

/-- What stands above the `let`. -/
def Decls.above (d : Decls) : Decls := ⟨d.args, d.withs, []⟩

/-- Below the declarations, the name means this. -/
inductive Denotes (d : Decls) (outer : Str → Prop) (attrs : Str → Str → Prop) : Str → Meaning → Prop where
  | bound (b : Binding) (before after : List Binding) (h : d.lets = before ++ b :: after)
      (hu : ∀ x ∈ before ++ after, x.name ≠ b.name) : Denotes d outer attrs b.name b.meaning
  | argument (n : Str) (as : List Str) (ha : d.args = some as) (hn : n ∈ as)
      (hl : ∀ b ∈ d.lets, b.name ≠ n) : Denotes d outer attrs n (.given n)
  | outside (n : Str) (hu : d.Unbound n) (ho : outer n) : Denotes d outer attrs n (.given n)
  | scope (n w : Str) (before after : List Str) (hu : d.Unbound n) (ho : ¬ outer n)
      (h : d.withs = before ++ w :: after) (hw : attrs w n) (hi : ∀ x ∈ after, ¬ attrs x n) :
      Denotes d outer attrs n (.attribute w n)

/-- What an import asks for. -/
def intended (cfg : Config) : Import → Meaning
  | .argument n => .given n.text
  | .inherit p n => .attribute p.text n.text
  | .variable _ v => .value ((toVec Nix.lang cfg v.items).getD [])
  | .with p n => .attribute p.text n.text

/-- The name an import asks for. -/
def nameOf : Import → Str
  | .argument n => n.text
  | .inherit _ n => n.text
  | .variable n _ => n.text
  | .with _ n => n.text

end Genco.Spec.NixFile
