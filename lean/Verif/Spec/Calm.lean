import Verif.Model.Item

/-!
# Line breaks in strings quoted in strings
-/

set_option autoImplicit false

namespace Genco.Spec

variable {ι : Type}

/-- No line break and no indentation is asked for in a string that is opened directly inside a string.
The first list of `levels` tells for each evaluation that is open, innermost first, whether a string
is open in it; there is a further list for every string opened directly inside a string. Such a string
ends with the next closing quote, whatever is open in it. -/
def calm : List (List Bool) → List (Item ι) → Bool
  | _, [] => true
  | [], _ => true
  | [] :: ls, _ :: r => calm ls r
  | (q :: st) :: ls, .openQuote _ :: r => if q then calm ([false] :: (q :: st) :: ls) r else calm ((true :: st) :: ls) r
  | (_ :: st) :: ls, .closeQuote :: r => if ls.isEmpty then calm [false :: st] r else calm ls r
  | st :: ls, .openEval :: r => calm ((false :: st) :: ls) r
  | (_ :: st) :: ls, .closeEval :: r => calm (st :: ls) r
  | st :: ls, .push :: r => ls.isEmpty && calm (st :: ls) r
  | st :: ls, .line :: r => ls.isEmpty && calm (st :: ls) r
  | st :: ls, .indentation n :: r => (ls.isEmpty || n == 0) && calm (st :: ls) r
  | st :: ls, _ :: r => calm (st :: ls) r

end Genco.Spec
