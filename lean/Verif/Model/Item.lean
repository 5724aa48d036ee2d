/-!
# Items of a token stream

Mirrors `src/tokens/item.rs` and `src/tokens/item_str.rs`.
-/

set_option autoImplicit false

namespace Genco

/-- Text. Rust `str` / `String` as the list of its `char`s (Unicode scalar
values, as Lean's `Char`). -/
abbrev Str := List Char

/-- `ItemStr`, src/tokens/item_str.rs 15-21. Equality and order are derived in
Rust, so the two constructors compare different even for equal text. -/
inductive ItemStr where
  /-- `ItemStr::Box(Box<str>)`. -/
  | box (s : Str)
  /-- `ItemStr::Static(&'static str)`. -/
  | static (s : Str)
  deriving DecidableEq, Repr

/-- `Deref for ItemStr`, src/tokens/item_str.rs 51-60: the text itself. -/
def ItemStr.text : ItemStr → Str
  | .box s => s
  | .static s => s

/-- `Item`, src/tokens/item.rs 10-49. `ι` is `L::Item`. The numbers in `lang`
and `register` are the recorded previous position. `Indentation(i16)` carries an
unbounded `Int` here; see `Verif.Model.I16` for the 16-bit arithmetic. -/
inductive Item (ι : Type) where
  | literal (s : ItemStr)
  | lang (prev : Nat) (item : ι)
  | register (prev : Nat) (item : ι)
  | push
  | line
  | space
  | indentation (n : Int)
  | openQuote (hasEval : Bool)
  | closeQuote
  | openEval
  | closeEval
  deriving DecidableEq, Repr

end Genco
