import Verif.Spec.Gaps

/-!
# What whitespace calls with silent calls among them should mean

Calls that put something into the stream that is not written, such as registering
an import, part the whitespace calls between two texts. Stated on the lists of
calls between the silent ones only.
-/

set_option autoImplicit false

namespace Genco.Spec

variable {ι : Type}

/-- A call that writes nothing and is no request for whitespace: an import is
registered, or an empty text appended. -/
inductive Silent : Call ι → Prop
  | register (i : ι) : Silent (.register i)
  | empty (s : ItemStr) (h : s.text = []) : Silent (.append (.literal s))

/-- Line breaks asked for by the parts. -/
def partBreaks (W : List (List WsCall)) : Nat := (W.map gapBreaks).foldr max 0

/-- Separator spaces asked for by the parts: every part asks for its own, but those
in front of the last part with the most line breaks are lost. -/
def partSpaces : List (List WsCall) → Nat
  | [] => 0
  | w :: W =>
    if 0 < partBreaks W ∧ gapBreaks w ≤ partBreaks W then partSpaces W
    else gapSpaces w + (W.map gapSpaces).sum

/-- The text between two texts. -/
def partText (cfg : Config) (level : Int) (W : List (List WsCall)) : Str :=
  (List.replicate (partBreaks W) cfg.newline).flatten ++
  (if partBreaks W > 0 then marginText cfg (level + (W.map net).sum).toNat else []) ++
  List.replicate (partSpaces W) ' '

end Genco.Spec
