import Verif.Model.Builders
import Verif.Model.Values

/-!
# Imports made from texts

The functions that make imports take anything that can be turned into an `ItemStr`. For
all types of texts but `ItemStr` itself this makes a boxed text.
-/

set_option autoImplicit false

namespace Genco

/-- A text of one of the types that can be turned into an `ItemStr`, src/tokens/item_str.rs
62-120, other than `ItemStr` and `&ItemStr`, which are kept as they are (68-72). -/
inductive Wording where
  | box (s : Str)
  | stringRef (s : Str)
  | string (s : Str)
  | str (s : Str)
  | strRef (s : Str)
  | cow (owned : Bool) (s : Str)
  | cowRef (owned : Bool) (s : Str)
  | rc (s : Str)
  deriving DecidableEq, Repr

/-- `Into<ItemStr>`, src/tokens/item_str.rs 62-66, 74-120. -/
def Wording.into : Wording → ItemStr
  | .box s => .fromBox s
  | .stringRef s => .fromStringRef s
  | .string s => .fromString s
  | .str s => .fromStr s
  | .strRef s => .fromStr s
  | .cow true s => .fromString s
  | .cow false s => .fromStr s
  | .cowRef true s => .fromString s
  | .cowRef false s => .fromStr s
  | .rc s => .fromRc s

/-- A text given to a function, or none. -/
abbrev Worded (x : ItemStr) : Prop := ∃ w : Wording, x = w.into

namespace Rust

/-- The step is given a text. -/
def Step.Worded : Step → Prop
  | .withAlias a => Genco.Worded a
  | .withModuleAlias a => Genco.Worded a
  | .qualified => True
  | .direct => True

/-- Made by `rust::import` and methods, all given texts, src/lang/rust.rs 701-714. -/
def Import.Worded (i : Import) : Prop :=
  ∃ (m n : Wording) (ss : List Step), (∀ s ∈ ss, s.Worded) ∧ i = build m.into n.into ss

end Rust

namespace Js

/-- The step is given a text. -/
def Step.Worded : Step → Prop
  | .withAlias a => Genco.Worded a
  | .intoDefault => True
  | .intoWildcard => True

/-- Made by `js::import` and methods, all given texts, src/lang/js.rs 396-406, 553-564. A
module can be given as `&str` or `String` (or as a path, which is not meant here). -/
def Import.Worded (i : Import) : Prop :=
  ∃ (m : Str) (owned : Bool) (n : Wording) (ss : List Step), (∀ s ∈ ss, s.Worded) ∧
    i = build (if owned then .fromString m else .fromStr m) n.into ss

end Js

namespace Python

/-- The step is given a text. -/
def Step.Worded : Step → Prop
  | .withAlias a => Genco.Worded a
  | .qualified => True
  | .withModuleAlias a => Genco.Worded a

/-- Made by `python::import` and methods, or by `python::import_module` and `with_alias`, all
given texts, src/lang/python.rs 382-394, 420-428. -/
def Import.Worded (i : Import) : Prop :=
  (∃ (m n : Wording) (ss : List Step), (∀ s ∈ ss, s.Worded) ∧ i = build m.into n.into ss) ∨
  ∃ (m : Wording) (as : List Wording), i = buildModule m.into (as.map Wording.into)

end Python

namespace Go

/-- Made by `go::import`, src/lang/go.rs 179-188, given texts. -/
def Import.Worded (i : Import) : Prop := ∃ m n : Wording, i = import_ m.into n.into

end Go

namespace Swift

/-- Made by `swift::import`, src/lang/swift.rs 136-145, given texts. -/
def Import.Worded (i : Import) : Prop := ∃ m n : Wording, i = import_ m.into n.into

end Swift

namespace C

/-- Made by `c::include` or `c::include_system`, src/lang/c.rs 119-129, 154-164, given texts. -/
def Import.Worded (i : Import) : Prop :=
  ∃ m n : Wording, i = include_ m.into n.into ∨ i = includeSystem m.into n.into

end C

namespace Dart

/-- Made by `dart::import` and `with_alias`, src/lang/dart/mod.rs 254-264, 182-187, given texts. -/
def Import.Worded (i : Import) : Prop :=
  ∃ (m n : Wording) (as : List Wording), i = build m.into n.into (as.map Wording.into)

end Dart

namespace Java

/-- Made by `java::import`, src/lang/java/mod.rs 240-249, given texts. -/
def Import.Worded (i : Import) : Prop := ∃ m n : Wording, i = import_ m.into n.into

end Java

namespace Nix

/-- Made by the functions of Nix, src/lang/nix.rs 271-397, given texts. -/
def Import.Worded (i : Import) : Prop :=
  (∃ n : Wording, i = argument n.into) ∨ (∃ p n : Wording, i = inherit_ p.into n.into) ∨
  (∃ (n : Wording) (v : Tokens Import), i = variable_ n.into v) ∨ ∃ p n : Wording, i = with_ p.into n.into

end Nix

end Genco
