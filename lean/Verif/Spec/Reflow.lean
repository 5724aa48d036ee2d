import Verif.Spec.Macro
import Verif.Model.Lex

/-!
# The same macro, laid out in another way

What is left of the nodes of a macro, and of tokens, if places are forgotten. Spaces in strings
count as text, so the widths of the gaps between their parts are kept.
-/

set_option autoImplicit false

namespace Genco.Spec.Reflow

open Genco.Macro MacroFile

variable {ι E E' Env : Type}

/-- No place. -/
def nowhere : Cur := ⟨⟨0, 0⟩, ⟨0, 0⟩⟩

/-- How far something is behind what is in front of it, if all ends in column 1. -/
def behind (n : Nat) : Cur := ⟨⟨0, n + 1⟩, ⟨0, 1⟩⟩

/-- The spaces behind the last part. -/
def lastGap (stop close : Pos) : List (Part E) → Nat
  | [] => close.column - stop.column
  | p :: ps => lastGap (placeOf p).stop close ps

section Nodes

variable (g : E → E')

mutual

/-- The nodes without their places; of parts of strings it is kept how far they are behind what is in front of
them. Code is replaced by what `g` says. -/
def bones : List (Node E) → List (Node E')
  | [] => []
  | n :: ns => bonesNode n :: bones ns

def bonesNode : Node E → Node E'
  | .tree _ text => .tree nowhere text
  | .escape _ => .escape nowhere
  | .str _ paren ps => .str nowhere ⟨⟨0, 0⟩, ⟨0, lastGap (inner paren).1 (inner paren).2 ps + 2⟩⟩ (bonesParts (inner paren).1 ps)
  | .control _ k => .control nowhere k
  | .quoted _ s => .quoted nowhere s
  | .literal _ s => .literal nowhere s
  | .eval _ e => .eval nowhere (g e)
  | .scope _ bound content => .scope nowhere bound (g content)
  | .loop _ pat iter body => .loop nowhere (g pat) (g iter) (bones body)
  | .joined _ pat iter _ sep body => .joined nowhere (g pat) (g iter) nowhere (bones sep) (bones body)
  | .ifThen _ c t => .ifThen nowhere (g c) (bones t)
  | .ifElse _ c t e => .ifElse nowhere (g c) (bones t) (bones e)
  | .select _ e arms => .select nowhere (g e) (bonesArms arms)
  | .bind _ pat e => .bind nowhere (g pat) (g e)
  | .group _ d content => .group nowhere d (bones content)

def bonesArms : List (Arm E) → List (Arm E')
  | [] => []
  | .mk pat guard _ body :: as => .mk (g pat) (guard.map g) none (bones body) :: bonesArms as

def bonesParts (stop : Pos) : List (Part E) → List (Part E')
  | [] => []
  | p :: ps => bonesPart ((placeOf p).start.column - stop.column) p :: bonesParts (placeOf p).stop ps

def bonesPart (gap : Nat) : Part E → Part E'
  | .dollar _ => .dollar (behind gap)
  | .constant _ s => .constant (behind gap) s
  | .raw _ e => .raw (behind gap) (g e)
  | .ident _ name => .ident (behind gap) name
  | .stream _ _ content => .stream (behind gap) nowhere (bones content)
  | .tt _ text => .tt (behind gap) text

end

end Nodes

/-- Two macros that differ only in layout. -/
def Alike (g : E → E') (ns ns' : List (Node E)) : Prop := bones g ns = bones g ns'

mutual

/-- The widths of all gaps in strings. -/
def gaps : List (Node E) → List Nat
  | [] => []
  | n :: ns => gapsNode n ++ gaps ns

def gapsNode : Node E → List Nat
  | .str _ paren ps => gapsParts (inner paren).1 (inner paren).2 ps
  | .loop _ _ _ body => gaps body
  | .joined _ _ _ _ sep body => gaps sep ++ gaps body
  | .ifThen _ _ t => gaps t
  | .ifElse _ _ t e => gaps t ++ gaps e
  | .select _ _ arms => gapsArms arms
  | .group _ _ content => gaps content
  | _ => []

def gapsArms : List (Arm E) → List Nat
  | [] => []
  | .mk _ _ _ body :: as => gaps body ++ gapsArms as

def gapsParts (stop close : Pos) : List (Part E) → List Nat
  | [] => [close.column - stop.column]
  | p :: ps => ((placeOf p).start.column - stop.column) :: (gapsPart p ++ gapsParts (placeOf p).stop close ps)

def gapsPart : Part E → List Nat
  | .stream _ _ content => gaps content
  | _ => []

end

mutual

/-- A token without its place. -/
def token : TT → TT
  | .ident _ name => .ident nowhere name
  | .punct _ c joint => .punct nowhere c joint
  | .str _ value text => .str nowhere value text
  | .char _ value text => .char nowhere value text
  | .lit _ text => .lit nowhere text
  | .group _ d content => .group nowhere d (tokensOf content)

/-- Tokens without their places. -/
def tokensOf : List TT → List TT
  | [] => []
  | t :: ts => token t :: tokensOf ts

end

/-- A parser for code to which it makes no difference where the code is. -/
structure Blind (S : Syn) : Prop where
  expr : ∀ ts, S.expr (tokensOf ts) = (S.expr ts).map fun p => (tokensOf p.1, tokensOf p.2)
  fullExpr : ∀ ts, S.fullExpr (tokensOf ts) = (S.fullExpr ts).map fun p => (tokensOf p.1, tokensOf p.2)
  pat : ∀ ts, S.pat (tokensOf ts) = (S.pat ts).map fun p => (tokensOf p.1, tokensOf p.2)
  patMulti : ∀ ts, S.patMulti (tokensOf ts) = (S.patMulti ts).map fun p => (tokensOf p.1, tokensOf p.2)
  display : ∀ t, S.display (token t) = S.display t

/-- Texts that differ in the whitespace between tokens. The text in front can be read, so it does not end inside of
a string; and either the line is over, so that no comment is open, or there was none. -/
inductive Respaced : Str → Str → Prop
  | same (s : Str) : Respaced s s
  | gap (a w w' b : Str) : (lexFrom .nightly ⟨1, 0, 0⟩ .none a).isSome = true → w ≠ [] → w' ≠ [] →
    (∀ c ∈ w, c.isWhitespace = true) → (∀ c ∈ w', c.isWhitespace = true) →
    ((w.head? = some '\n' ∧ w'.head? = some '\n') ∨ '/' ∉ a) → Respaced (a ++ w ++ b) (a ++ w' ++ b)
  | trans {s t u : Str} : Respaced s t → Respaced t u → Respaced s u

/-- Code is given another form. -/
def pull (g : E → E') (K : Host ι E' Env) : Host ι E Env where
  value ρ e := K.value ρ (g e)
  scope ρ e := K.scope ρ (g e)
  iter ρ p e := K.iter ρ (g p) (g e)
  test ρ e := K.test ρ (g e)
  pick ρ e p q := K.pick ρ (g e) (g p) (q.map g)
  bind ρ p e := K.bind ρ (g p) (g e)

/-- An item letter by letter, without whitespace. -/
def spelt1 : Item ι → List (Item ι)
  | .literal s => s.text.map fun c => .literal (.static [c])
  | i => if isWs i then [] else [erase i]

/-- A stream letter by letter, without the whitespace between its texts. The whitespace in strings is text. -/
def spelt (l : List (Item ι)) : List (Item ι) := l.flatMap spelt1

/-- The nodes of a macro in source text. -/
def nodesOf (C : Compiler) (i : Invocation) : Option (List (Node (List TT))) :=
  (lex C i.place (textOf i.lines)).bind (parseAll syn i.rounds)

/-- No string is opened directly inside a string. `within` tells for each evaluation that is open, innermost
first, and for the stream, whether a string is open in it. -/
def sober : List Bool → List (Item ι) → Bool
  | _, [] => true
  | q :: st, .openQuote _ :: r => !q && sober (true :: st) r
  | _ :: st, .closeQuote :: r => sober (false :: st) r
  | st, .openEval :: r => sober (false :: st) r
  | _ :: st, .closeEval :: r => sober st r
  | st, _ :: r => sober st r

end Genco.Spec.Reflow
