import Verif.Model.ImportsB
import Verif.Spec.Simple

/-!
# Names of Java classes

As in the Java Language Specification, 6.4.1 and 7.5.1: a simple name means the
class of a single-type import; otherwise the class of the file's own package;
otherwise the class of `java.lang`. Nested classes and inherited members are not
considered. A class is a pair of package and name.
-/

set_option autoImplicit false

namespace Genco.Spec.JavaFile

open Genco.Java

/-- `import package.name;`. -/
def importLine (package name : Str) : Str := command "import" (package ++ '.' :: (name ++ [';']))

/-- `package name;`. -/
def packageLine (name : Str) : Str := command "package" (name ++ [';'])

def langPackage : Str := "java.lang".toList

/-- What a file knows: its package, its imports, and the classes there are. -/
structure Scope where
  package : Option Str
  imports : List (Str × Str)
  classes : Str → Str → Prop

/-- The package of the file; a file without package belongs to the unnamed one. -/
def Scope.own (s : Scope) : Str := s.package.getD []

/-- In the file, the text `ref` names the class `name` of `package`. -/
inductive Denotes (s : Scope) : Str → Str → Str → Prop where
  | imported (p n : Str) (hn : '.' ∉ n) (h : (p, n) ∈ s.imports)
      (hu : ∀ p', (p', n) ∈ s.imports → p' = p) : Denotes s n p n
  | own (n : Str) (hn : '.' ∉ n) (hi : ∀ p, (p, n) ∉ s.imports) (hc : s.classes s.own n) :
      Denotes s n s.own n
  | lang (n : Str) (hn : '.' ∉ n) (hi : ∀ p, (p, n) ∉ s.imports) (ho : ¬ s.classes s.own n)
      (hc : s.classes langPackage n) : Denotes s n langPackage n
  | full (p n : Str) (hn : '.' ∉ n) (hc : s.classes p n) : Denotes s (p ++ '.' :: n) p n

/-- The package and name of an import. -/
def target (i : Import) : Str × Str := (i.package.text, i.name.text)

/-- The class has to be imported or written in full. -/
def Foreign (package : Option Str) (c : Str × Str) : Prop :=
  c.1 ≠ langPackage ∧ some c.1 ≠ package

/-- An import as it is meant: names contain no dot, packages are not empty, and the
class exists. -/
def Proper (classes : Str → Str → Prop) (i : Import) : Prop :=
  '.' ∉ i.name.text ∧ i.package.text ≠ [] ∧ classes i.package.text i.name.text

/-- No class of the own package or of `java.lang` has the name of a foreign class
that is used, and no class that exists in the own package has the name of a class
of `java.lang` that is used. -/
def Apart (package : Option Str) (classes : Str → Str → Prop) (cs : List (Str × Str)) : Prop :=
  (∀ c ∈ cs, ∀ d ∈ cs, Foreign package c → ¬ Foreign package d → c.2 ≠ d.2) ∧
  ∀ c ∈ cs, c.1 = langPackage → some c.1 ≠ package → ¬ classes (package.getD []) c.2

/-- The simple name of the class `c`, which is of the own package or of `java.lang`,
is not taken: no foreign class that is used has that name, and if `c` is not of the
own package, the own package has no class of that name. -/
def Free (package : Option Str) (classes : Str → Str → Prop) (cs : List (Str × Str)) (c : Str × Str) : Prop :=
  (∀ d ∈ cs, Foreign package d → d.2 ≠ c.2) ∧
  (some c.1 ≠ package → ¬ classes (package.getD []) c.2)

/-- Of the foreign classes with its name, the class is the one that comes first. -/
def Chosen (package : Option Str) (l : List Import) (i : Import) : Prop :=
  i ∈ l ∧ Foreign package (target i) ∧
    ∀ j ∈ l, Foreign package (target j) → j.name.text = i.name.text →
      compare (i.package, i.name) (j.package, j.name) ≠ .gt

end Genco.Spec.JavaFile
