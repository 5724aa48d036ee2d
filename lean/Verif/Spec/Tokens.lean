import Verif.Model.Tokens

/-!
# Specifications about token streams

Stated on what iterating a stream shows and on the list of calls made, without
the functions of the model that implement the calls.
-/

set_option autoImplicit false

namespace Genco.Spec

variable {ι : Type}

/-- Pairs of neighbouring items `a, b` (in this order) that must never be seen
when iterating a stream. -/
inductive Forbidden : Item ι → Item ι → Prop
  | spaceSpace : Forbidden .space .space
  | spacePush : Forbidden .space .push
  | pushPush : Forbidden .push .push
  | linePush : Forbidden .line .push
  | pushLine : Forbidden .push .line
  | lineLine : Forbidden .line .line
  | spaceInd (n) : Forbidden .space (.indentation n)
  | pushInd (n) : Forbidden .push (.indentation n)
  | lineInd (n) : Forbidden .line (.indentation n)
  | indInd (m n) : Forbidden (.indentation m) (.indentation n)

/-- Whitespace normal form of an item sequence. -/
def NormalForm (l : List (Item ι)) : Prop :=
  (∀ p a b q, l = p ++ a :: b :: q → ¬ Forbidden a b) ∧ Item.indentation 0 ∉ l

/-- Whitespace items. -/
def isWs : Item ι → Bool
  | .push | .line | .space | .indentation _ => true
  | _ => false

/-- Forget the internal link numbers. -/
def erase : Item ι → Item ι
  | .lang _ i => .lang 0 i
  | .register _ i => .register 0 i
  | x => x

/-- The items one call puts on the stream, before any collapsing. -/
def callItems : Call ι → List (Item ι)
  | .append i => [i]
  | .appendLang i => [.lang 0 i]
  | .register i => [.register 0 i]
  | .space => [.space]
  | .push => [.push]
  | .line => [.line]
  | .indent => [.indentation 1]
  | .unindent => [.indentation (-1)]
  | .stream it => it

/-- The language item carried by an item. -/
def langOf : Item ι → Option ι
  | .lang _ i => some i
  | .register _ i => some i
  | _ => none

/-- The language items handed over by a history, in order of insertion. -/
def inserted (cs : List (Call ι)) : List ι := (cs.flatMap callItems).filterMap langOf

/-- The non-whitespace items handed over by a history, in order. -/
def content (cs : List (Call ι)) : List (Item ι) :=
  ((cs.flatMap callItems).filter (fun i => !isWs i)).map erase

/-- The indentation amount of an item. -/
def indOf : Item ι → Int
  | .indentation n => n
  | _ => 0

/-- Sum of all indentation amounts. -/
def indSum (l : List (Item ι)) : Int := (l.map indOf).sum

end Genco.Spec
