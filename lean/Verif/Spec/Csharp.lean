import Verif.Model.ImportsB
import Verif.Spec.Simple

/-!
# Names of C# types

As in the C# specification, "Namespace and type names": a simple name is looked up
in the namespace around it, then in the enclosing ones out to the global
namespace, where the `using` directives of the file are considered last; a name
found in two namespaces that are used is an error. A type is a pair of namespace
and name; names written with their namespace are taken literally.
-/

set_option autoImplicit false

namespace Genco.Spec.CsharpFile

open Genco.Csharp

/-- `using namespace;`. -/
def usingLine (ns : Str) : Str := command "using" (ns ++ [';'])

/-- `namespace name {`. -/
def namespaceLine (ns : Str) : Str := "namespace ".toList ++ ns ++ " {".toList

/-- What a file knows: its namespace, the namespaces it uses, and the types there
are. -/
structure Scope where
  namespace_ : Option Str
  usings : List Str
  types : Str → Str → Prop

/-- `ns` is the namespace `own`, one that encloses it, or the global one (empty). -/
def Encloses (own : Option Str) (ns : Str) : Prop :=
  ns = [] ∨ ∃ o, own = some o ∧ (o = ns ∨ ∃ r, o = ns ++ '.' :: r)

/-- In the file, the text `ref` names the type `name` of `ns`. -/
inductive Denotes (s : Scope) : Str → Str → Str → Prop where
  | around (ns n : Str) (hn : '.' ∉ n) (he : Encloses s.namespace_ ns) (hc : s.types ns n)
      (hd : ∀ ns', Encloses s.namespace_ ns' → ns.length < ns'.length → ¬ s.types ns' n) :
      Denotes s n ns n
  | used (ns n : Str) (hn : '.' ∉ n) (ha : ∀ ns', Encloses s.namespace_ ns' → ¬ s.types ns' n)
      (hm : ns ∈ s.usings) (hc : s.types ns n) (hu : ∀ ns' ∈ s.usings, s.types ns' n → ns' = ns) :
      Denotes s n ns n
  | full (ns n : Str) (hn : '.' ∉ n) (hc : s.types ns n) : Denotes s (ns ++ '.' :: n) ns n

/-- The namespace and name of an import. -/
def target (i : Import) : Str × Str := (i.ns.text, i.name.text)

/-- Of all namespaces that the type name is used with, other than the own one, `ns`
is the first in order. -/
def Chosen (own : Option Str) (cs : List (Str × Str)) (ns n : Str) : Prop :=
  (ns, n) ∈ cs ∧ some ns ≠ own ∧
    ∀ ns', (ns', n) ∈ cs → some ns' ≠ own → ns' = ns ∨ compare ns ns' = .lt

/-- An import as it is meant. -/
def Proper (types : Str → Str → Prop) (i : Import) : Prop :=
  '.' ∉ i.name.text ∧ i.ns.text ≠ [] ∧ types i.ns.text i.name.text

/-- A name that is written without namespace is in no other enclosing namespace,
and in no other namespace that is used. -/
def Apart (own : Option Str) (types : Str → Str → Prop) (cs : List (Str × Str)) : Prop :=
  ∀ ns n, Chosen own cs ns n →
    (∀ ns', Encloses own ns' → types ns' n → ns' = ns) ∧
    ∀ u m, Chosen own cs u m → types u n → u = ns

/-- The bare name of the type `c` means `c`: either its namespace is around the file
and none further in has a type of that name, or no namespace around the file and no
other namespace that is used has one. -/
def Free (own : Option Str) (types : Str → Str → Prop) (cs : List (Str × Str)) (c : Str × Str) : Prop :=
  (Encloses own c.1 ∧ ∀ ns, Encloses own ns → types ns c.2 → ns.length ≤ c.1.length) ∨
  ((∀ ns, Encloses own ns → ¬ types ns c.2) ∧ ∀ u m, Chosen own cs u m → types u c.2 → u = c.1)

end Genco.Spec.CsharpFile
