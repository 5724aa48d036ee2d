import Verif.Spec.Strings
import Verif.Spec.Layout

/-!
# The strings of a stream and the strings of a text
-/

set_option autoImplicit false

namespace Genco.Spec

variable {ι : Type}

/-- The contents of the strings of a stream, in order, for streams of code without quotes of its own
and strings of literals; `none` for other streams. The first argument is what was read of the string
we are in. -/
def contents (f : ι → List Str) : Option Str → List (Item ι) → Option (List Str)
  | none, [] => some []
  | none, .openQuote false :: r => contents f (some []) r
  | none, .literal s :: r => if '"' ∈ s.text then none else contents f none r
  | none, .lang _ i :: r => if '"' ∈ (f i).flatten then none else contents f none r
  | none, .register _ _ :: r => contents f none r
  | none, .push :: r => contents f none r
  | none, .line :: r => contents f none r
  | none, .space :: r => contents f none r
  | none, .indentation _ :: r => contents f none r
  | some t, .literal s :: r => contents f (some (t ++ s.text)) r
  | some t, .register _ _ :: r => contents f (some t) r
  | some t, .closeQuote :: r => (contents f none r).map (t :: ·)
  | _, _ => none

/-- What a reader that looks for quotes finds in a text: the insides of its string literals, in
order. -/
inductive Found : Str → List Str → Prop
  | none {s : Str} : '"' ∉ s → Found s []
  | one {code q body r : Str} {bs : List Str} : '"' ∉ code → closeAt q = some (body, r) → Found r bs →
    Found (code ++ '"' :: q) (body :: bs)

end Genco.Spec
