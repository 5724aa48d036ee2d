import Verif.Spec.Js

/-!
# Where paths lead

A place is a number of directories up from a fixed one, and names down from there. A path text
is followed segment by segment. An import specifier of JavaScript is followed from the
directory of the file it is written in, and only if it starts with `./` or `../`; other
specifiers are names of packages.
-/

set_option autoImplicit false

namespace Genco.Spec.Paths

structure Place where
  ups : Nat
  names : List Str
  deriving DecidableEq, Repr

/-- The fixed directory. -/
def here : Place := ⟨0, []⟩

/-- The directory something is in. -/
def Place.dir (p : Place) : Place :=
  if p.names = [] then ⟨p.ups + 1, []⟩ else ⟨p.ups, p.names.dropLast⟩

/-- A text cut at its slashes. -/
def segments : Str → List Str
  | [] => [[]]
  | c :: s =>
    if c = '/' then [] :: segments s
    else match segments s with
      | x :: r => (c :: x) :: r
      | [] => [[c]]

def Place.follow (p : Place) (seg : Str) : Place :=
  if seg = [] ∨ seg = ['.'] then p
  else if seg = ['.', '.'] then p.dir
  else ⟨p.ups, p.names ++ [seg]⟩

/-- From a directory along a path. -/
def walk (p : Place) (path : Str) : Place := (segments path).foldl Place.follow p

/-- A specifier that is a path, not the name of a package. -/
def isRelative (spec : Str) : Bool := (segments spec).head? = some ['.'] ∨ (segments spec).head? = some ['.', '.']

/-- What `import … from "spec"` in a file leads to. -/
def imported (file : Place) (spec : Str) : Option Place :=
  if isRelative spec then some (walk file.dir spec) else none

end Genco.Spec.Paths
