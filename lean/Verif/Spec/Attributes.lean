import Verif.Spec.MacroParse

/-!
# Attributes

Tokens that are a list of attributes, and the arms that follow one.
-/

set_option autoImplicit false

namespace Genco.Spec.MacroFile

open Genco.Macro

/-- The token is a `#`. -/
def isHash : TT → Bool
  | .punct _ c _ => c == '#'
  | _ => false

/-- `#[a] #[b] …` with these contents. -/
inductive Attributes (isMeta : List TT → Bool) : List TT → List (List TT) → Prop where
  | nil : Attributes isMeta [] []
  | cons {c b : Cur} {j : Bool} {content ts : List TT} {as : List (List TT)} :
    isMeta content = true → Attributes isMeta ts as →
    Attributes isMeta (.punct c '#' j :: .group b .bracket content :: ts) (content :: as)

end Genco.Spec.MacroFile
