import Verif.Model.Btree

/-!
# Texts as bytes

Rust keeps a `str` in UTF-8 and compares it byte by byte. `String.utf8EncodeChar` is the encoding
of the Lean library.
-/

set_option autoImplicit false

namespace Genco.Spec

/-- The bytes of a text. -/
def strBytes (s : Str) : List UInt8 := s.flatMap String.utf8EncodeChar

/-- `Ord` of `str`: the bytes, one after the other. -/
def cmpStr (a b : Str) : Ordering := compare (strBytes a) (strBytes b)

/-- Derived `Ord` of `ItemStr`, src/tokens/item_str.rs 15. -/
def ordItemStr : Ord ItemStr where
  compare
    | .box a, .box b => cmpStr a b
    | .box _, .static _ => .lt
    | .static _, .box _ => .gt
    | .static a, .static b => cmpStr a b

end Genco.Spec
