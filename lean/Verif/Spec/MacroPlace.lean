import Verif.Spec.Macro

/-!
# Where the nodes of a macro are
-/

set_option autoImplicit false

namespace Genco.Spec.MacroFile

open Genco.Macro

variable {ι E : Type}

/-! ## All on one line -/

/-- The place is on a line. -/
def Here (l : Nat) (cur : Cur) : Prop := cur.start.line = l ∧ cur.stop.line = l

mutual

/-- All nodes are on one line. If `breaks` is not given, none asks for a line break. -/
def OneLine (l : Nat) (breaks : Bool) : List (Node E) → Prop
  | [] => True
  | n :: ns => NodeHere l breaks n ∧ OneLine l breaks ns

def NodeHere (l : Nat) (breaks : Bool) : Node E → Prop
  | .tree cur _ => Here l cur
  | .escape cur => Here l cur
  | .str cur paren ps => Here l cur ∧ Here l paren ∧ PartsHere l breaks ps
  | .control cur k => Here l cur ∧ (breaks = true ∨ k = .space)
  | .quoted cur _ => Here l cur
  | .literal cur _ => Here l cur
  | .eval cur _ => Here l cur
  | .scope cur _ _ => Here l cur
  | .loop cur _ _ body => Here l cur ∧ OneLine l breaks body
  | .joined cur _ _ paren sep body => Here l cur ∧ Here l paren ∧ OneLine l breaks sep ∧ OneLine l breaks body
  | .ifThen cur _ t => Here l cur ∧ OneLine l breaks t
  | .ifElse cur _ t e => Here l cur ∧ OneLine l breaks t ∧ OneLine l breaks e
  | .select cur _ arms => Here l cur ∧ ArmsHere l breaks arms
  | .bind cur _ _ => Here l cur
  | .group cur _ content => Here l cur ∧ OneLine l breaks content

def ArmsHere (l : Nat) (breaks : Bool) : List (Arm E) → Prop
  | [] => True
  | .mk _ _ paren body :: as => (∀ c ∈ paren, Here l c) ∧ OneLine l breaks body ∧ ArmsHere l breaks as

def PartsHere (l : Nat) (breaks : Bool) : List (Part E) → Prop
  | [] => True
  | p :: ps => Here l (placeOf p) ∧ PartHere l breaks p ∧ PartsHere l breaks ps

def PartHere (l : Nat) (breaks : Bool) : Part E → Prop
  | .stream _ span content => Here l span ∧ OneLine l breaks content
  | _ => True

end

/-- A call that breaks the line or changes the indentation. -/
def BreakCall (c : Call ι) : Prop := c = .push ∨ c = .line ∨ c = .indent ∨ c = .unindent

/-! ## Down the page -/

mutual

/-- The nodes go down the page, from one line to another. What is within a loop or a
condition goes down by itself. -/
def Down : Nat → List (Node E) → Nat → Prop
  | l, [], m => l ≤ m
  | l, n :: ns, m => ∃ k, NodeDown l n k ∧ Down k ns m

def NodeDown : Nat → Node E → Nat → Prop
  | l, .tree cur _, m => l ≤ cur.start.line ∧ cur.stop.line = m
  | l, .escape cur, m => l ≤ cur.start.line ∧ cur.stop.line = m
  | l, .str cur _ ps, m => l ≤ cur.start.line ∧ cur.stop.line = m ∧ PartsDown ps
  | l, .control cur _, m => l ≤ cur.start.line ∧ cur.stop.line = m
  | l, .quoted cur _, m => l ≤ cur.start.line ∧ cur.stop.line = m
  | l, .literal cur _, m => l ≤ cur.start.line ∧ cur.stop.line = m
  | l, .eval cur _, m => l ≤ cur.start.line ∧ cur.stop.line = m
  | l, .scope cur _ _, m => l ≤ cur.start.line ∧ cur.stop.line = m
  | l, .loop cur _ _ body, m => l ≤ cur.start.line ∧ cur.stop.line = m ∧ ∃ k, Down 0 body k
  | l, .joined cur _ _ paren sep body, m => l ≤ cur.start.line ∧ cur.stop.line = m ∧
      Down paren.start.line sep paren.stop.line ∧ ∃ k, Down 0 body k
  | l, .ifThen cur _ t, m => l ≤ cur.start.line ∧ cur.stop.line = m ∧ ∃ k, Down 0 t k
  | l, .ifElse cur _ t e, m => l ≤ cur.start.line ∧ cur.stop.line = m ∧ (∃ k, Down 0 t k) ∧ ∃ k, Down 0 e k
  | l, .select cur _ arms, m => l ≤ cur.start.line ∧ cur.stop.line = m ∧ ArmsDown arms
  | l, .bind cur _ _, m => l ≤ cur.start.line ∧ cur.stop.line = m
  | l, .group cur _ content, m => l ≤ cur.start.line ∧ cur.stop.line = m ∧ Down cur.start.line content cur.stop.line

def ArmsDown : List (Arm E) → Prop
  | [] => True
  | .mk _ _ none body :: as => (∃ k, Down 0 body k) ∧ ArmsDown as
  | .mk _ _ (some paren) body :: as => Down paren.start.line body paren.stop.line ∧ ArmsDown as

/-- Within a string `$(…)` counts as what is at its first token. -/
def PartsDown : List (Part E) → Prop
  | [] => True
  | p :: ps => PartDown p ∧ PartsDown ps

def PartDown : Part E → Prop
  | .stream _ span content => Down span.start.line content span.stop.line
  | _ => True

end

end Genco.Spec.MacroFile
