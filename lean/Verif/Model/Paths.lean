import Verif.Model.ImportsB

/-!
# Relative paths of JavaScript modules

`render_from`, src/lang/js.rs 508-516, calls `RelativePath::relative` of the `relative_path`
crate (1.x). The crate is not part of the repository; what is needed of it is written down here
from its documentation and source. Buffers that are only built with `push` and `pop` of
components are kept as lists of components.
-/

set_option autoImplicit false

namespace Genco.Js

/-- `Components::next` until there are no more: separators in front are dropped, then the text
up to the next one is a component. `fuel` bounds the turns; each takes a character. -/
def componentsFuel : Nat → Str → List Component
  | 0, _ => []
  | fuel + 1, s =>
    let s := s.dropWhile (· == '/')
    let rest := s.dropWhile (· != '/')
    match s.takeWhile (· != '/') with
    | [] => []
    | ['.'] => .curDir :: componentsFuel fuel rest
    | ['.', '.'] => .parentDir :: componentsFuel fuel rest
    | name => .normal name :: componentsFuel fuel rest

/-- `RelativePath::components`. -/
def components (s : Str) : List Component := componentsFuel (s.length + 1) s

/-- `Component::as_str`. -/
def Component.text : Component → Str
  | .curDir => ['.']
  | .parentDir => ['.', '.']
  | .normal s => s

/-- `RelativePathBuf::push` for a text that does not start with a separator. -/
def pushText (buf : Str) (s : Str) : Str :=
  if buf ≠ [] ∧ buf.getLast? ≠ some '/' then buf ++ '/' :: s else buf ++ s

/-- A buffer that the components were pushed to. -/
def pathText (p : List Component) : Str := p.foldl (fun buf c => pushText buf c.text) []

/-- One turn of `relative_traversal`; the buffer is kept with its last component first. -/
def traverseStep (buf : List Component) : Component → List Component
  | .curDir => buf
  | .parentDir =>
    match buf with
    | [] => [.parentDir]
    | .parentDir :: r => .parentDir :: .parentDir :: r
    | _ :: r => r
  | .normal s => .normal s :: buf

/-- `relative_traversal` into an empty buffer. -/
def traverse (p : List Component) : List Component := (p.foldl traverseStep []).reverse

/-- The loop of `RelativePath::relative` that skips what is common to both. -/
def skipCommon : List Component → List Component → List Component × List Component
  | f :: fs, t :: ts => if f = t then skipCommon fs ts else (f :: fs, t :: ts)
  | fs, ts => (fs, ts)

/-- `RelativePath::relative`. -/
def relative (self path : List Component) : List Component :=
  match skipCommon (traverse self) (traverse path) with
  | (.parentDir :: _, _) => []
  | (head, tail) => head.map (fun _ => .parentDir) ++ tail

/-- The text of a path module, src/lang/js.rs 512-513: without a configured module path its own
text, which is taken to be the one with single separators, otherwise `relative` of the
configured one. -/
def pathFrom (modulePath : Option Str) (p : List Component) : Str :=
  match modulePath with
  | none => pathText p
  | some m => pathText (relative (components m) p)

end Genco.Js
