import Verif.Model.Values
import Verif.Spec.Fake
import Verif.Spec.Tokens
import Verif.Spec.Layout

/-!
# What appended values and comments should give
-/

set_option autoImplicit false

namespace Genco.Spec

variable {ι : Type}

/-- Forget how a text is stored and the internal link numbers. -/
def bare : Item ι → Item ι
  | .literal s => .literal (.static s.text)
  | .lang _ i => .lang 0 i
  | .register _ i => .register 0 i
  | i => i

/-- A number as printed: a minus sign if negative, then its digits. -/
def signed (n : Int) : Str :=
  if n < 0 then '-' :: SpanText.decimal n.natAbs else SpanText.decimal n.natAbs

/-- `Reads v s`: the value is a piece of text, whatever its type, and reads `s`. -/
inductive Reads : Value ι → Str → Prop
  | item (s : ItemStr) : Reads (.item (.literal s)) s.text
  | itemStr (s : ItemStr) : Reads (.itemStr s) s.text
  | itemStrRef (s : ItemStr) : Reads (.itemStrRef s) s.text
  | str (s : Str) : Reads (.str s) s
  | stringRef (s : Str) : Reads (.stringRef s) s
  | string (s : Str) : Reads (.string s) s
  | rc (s : Str) : Reads (.rc s) s
  | rcRef (s : Str) : Reads (.rcRef s) s
  | arguments (s : Str) : Reads (.arguments s) s
  | cowStr (o : Bool) (s : Str) : Reads (.cowStr o s) s
  | cowStrRef (o : Bool) (s : Str) : Reads (.cowStrRef o s) s
  | int (n : Int) : Reads (.int n) (signed n)
  | display (s : Str) : Reads (.display s) s
  | static (s : Str) : Reads (.static s) s
  | some {v : Value ι} {s : Str} (h : Reads v s) : Reads (.some v) s

/-- The imports of a registration, in order. -/
inductive Registers : Reg ι → List ι → Prop
  | one (i : ι) : Registers (.one i) [i]
  | nil : Registers (.tuple []) []
  | cons {r : Reg ι} {rs : List (Reg ι)} {a b : List ι} (h : Registers r a)
      (hs : Registers (.tuple rs) b) : Registers (.tuple (r :: rs)) (a ++ b)

/-- A sequence of values, in any kind of container. -/
def elements : Value ι → Option (List (Value ι))
  | .vec vs | .vecRef vs | .slice vs | .cowSlice _ vs | .cowSliceRef _ vs => Option.some vs
  | _ => Option.none

/-- The mark before the lines of a comment that has no end mark. -/
def commentMark : Value ι → Option (Str × List ItemStr)
  | .csharpBlockComment ls | .dartDocComment ls => Option.some ("///".toList, ls)
  | .csharpComment ls => Option.some ("//".toList, ls)
  | _ => Option.none

/-- A mark and a text on one line: a space between them, if there is a text. -/
def marked (mark text : Str) : Str := if text = [] then mark else mark ++ ' ' :: text

/-- The lines of a comment. -/
def commentLines : Value ι → Option (List Str)
  | .javaBlockComment [] => Option.some []
  | .javaBlockComment ls =>
    Option.some ("/**".toList :: (ls.map fun l => marked " *".toList l.text) ++ [" */".toList])
  | v => (commentMark v).map fun (m, ls) => ls.map fun l => marked m l.text

/-- The stream starts with a request that starts a new line. -/
def StartsLine (l : List (Item ι)) : Prop :=
  ∃ i r, l = i :: r ∧ (i = .push ∨ i = .line ∨ ∃ n, n ≠ 0 ∧ i = .indentation n)

end Genco.Spec
