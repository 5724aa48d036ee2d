import Verif.Spec.Macro

/-!
# Blocks, pieces and where they are
-/

set_option autoImplicit false

namespace Genco.Spec.Blame

open Genco.Macro Genco.Spec Genco.Spec.MacroFile

variable {E : Type}

mutual

/-- Where the pieces of a block are, from left to right. A group is two pieces with those of its content
between them. Anything else is one piece, whatever is inside. -/
def places : List (Node E) → List Cur
  | [] => []
  | n :: ns => placesOf n ++ places ns

def placesOf : Node E → List Cur
  | .tree cur _ => [cur]
  | .escape cur => [cur]
  | .str cur _ _ => [cur]
  | .control cur _ => [cur]
  | .quoted cur _ => [cur]
  | .literal cur _ => [cur]
  | .eval cur _ => [cur]
  | .scope cur _ _ => [cur]
  | .loop cur _ _ _ => [cur]
  | .joined cur _ _ _ _ _ => [cur]
  | .ifThen cur _ _ => [cur]
  | .ifElse cur _ _ _ => [cur]
  | .select cur _ _ => [cur]
  | .bind cur _ _ => [cur]
  | .group cur _ content =>
    ⟨cur.start, ⟨cur.start.line, cur.start.column + 1⟩⟩ :: places content ++
      [⟨⟨cur.stop.line, cur.stop.column - 1⟩, cur.stop⟩]

end

/-- Tokens at the places of the pieces. If the block is in parentheses that count, so are the insides of
the parentheses. -/
def outline (span : Option Cur) (ns : List (Node E)) : List Tok :=
  match span with
  | none => (places ns).map (·, [])
  | some c =>
    (⟨(inner c).1, (inner c).1⟩, []) :: (places ns).map (·, []) ++ [(⟨(inner c).2, (inner c).2⟩, [])]

/-- The node is in the block, perhaps in groups. -/
inductive In : Node E → List (Node E) → Prop
  | here {n : Node E} {ns : List (Node E)} (h : n ∈ ns) : In n ns
  | group {n : Node E} {cur : Cur} {d : Delimiter} {content ns : List (Node E)}
      (h : Node.group cur d content ∈ ns) (h' : In n content) : In n ns

/-- The blocks of a node, with the parentheses that count. -/
inductive Within : Node E → Option Cur → List (Node E) → Prop
  | loop (cur : Cur) (pat iter : E) (body : List (Node E)) : Within (.loop cur pat iter body) none body
  | separator (cur : Cur) (pat iter : E) (paren : Cur) (sep body : List (Node E)) :
      Within (.joined cur pat iter paren sep body) (some paren) sep
  | joined (cur : Cur) (pat iter : E) (paren : Cur) (sep body : List (Node E)) :
      Within (.joined cur pat iter paren sep body) none body
  | ifThen (cur : Cur) (c : E) (t : List (Node E)) : Within (.ifThen cur c t) none t
  | ifTrue (cur : Cur) (c : E) (t e : List (Node E)) : Within (.ifElse cur c t e) none t
  | ifFalse (cur : Cur) (c : E) (t e : List (Node E)) : Within (.ifElse cur c t e) none e
  | arm (cur : Cur) (e pat : E) (guard : Option E) (paren : Option Cur) (block : List (Node E))
      (arms : List (Arm E)) (h : Arm.mk pat guard paren block ∈ arms) : Within (.select cur e arms) paren block
  | part (cur paren place span : Cur) (content : List (Node E)) (ps : List (Part E))
      (h : Part.stream place span content ∈ ps) : Within (.str cur paren ps) (some span) content

/-- The second block is the first, or is in one of its nodes at any depth. -/
inductive Inside : Option Cur → List (Node E) → Option Cur → List (Node E) → Prop
  | self (span : Option Cur) (ns : List (Node E)) : Inside span ns span ns
  | deeper {n : Node E} {ns ms ks : List (Node E)} {span sp sq : Option Cur} (h : In n ns) (h1 : Within n sp ms)
      (h2 : Inside sp ms sq ks) : Inside span ns sq ks

/-- The parts behind `stop`, up to `close`: each begins on the line on which the one before ends. -/
def OneLine (stop close : Pos) : List (Part E) → Prop
  | [] => stop.line = close.line
  | p :: ps => stop.line = (placeOf p).start.line ∧ OneLine (placeOf p).stop close ps

/-- The strings with parts in a block are on one line each. -/
def StringsOk (ns : List (Node E)) : Prop :=
  ∀ cur paren ps, In (.str cur paren ps) ns → OneLine (inner paren).1 (inner paren).2 ps

end Genco.Spec.Blame
