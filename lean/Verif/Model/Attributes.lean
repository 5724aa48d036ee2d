import Verif.Model.MacroParse

/-!
# Attributes of the arms of a `match`

`parse_match` looks for the attributes of an arm in `input` and not in `body`
(genco-macros/src/quote.rs 199), that is, behind the braces of the `match`. Here is
`parse_match` with this step, which `Model/MacroParse.lean` leaves out.
-/

set_option autoImplicit false

namespace Genco.Macro

/-- `syn::Attribute::parse_outer`: as long as there is a `#`, a pair of brackets has to follow, with
the content of an attribute (`isMeta`). The contents of the attributes, and the rest. -/
def outer (isMeta : List TT → Bool) : List TT → Option (List (List TT) × List TT)
  | .punct _ '#' _ :: .group _ .bracket content :: r =>
    if isMeta content then (outer isMeta r).map (fun p => (content :: p.1, p.2)) else none
  | .punct _ '#' _ :: _ => none
  | r => some ([], r)

/-- `MatchArm`, genco-macros/src/ast.rs 8-14: the attributes, and the rest. -/
abbrev MatchArm : Type := List (List TT) × Arm (List TT)

/-- The loop of `parse_match`, genco-macros/src/quote.rs 198-242, with what is left of `input` and
of `body`. -/
def armsWith (S : Syn) (isMeta : List TT → Bool) : Nat → List TT → List TT → Option (List MatchArm × List TT)
  | 0, _, _ => none
  | _ + 1, input, [] => some ([], input)
  | n + 1, input, body => do
    -- 199
    let (attr, input) ← outer isMeta input
    -- 200-213
    let (pat, r) ← S.patMulti body
    let (guard, r) ← guardOf S r
    let r ← fatArrow r
    match r with
    | .group _ .brace content :: r => do
      let block ← parseAll S n content
      let (as, input) ← armsWith S isMeta n input (dropComma r)
      some ((attr, .mk pat guard none block) :: as, input)
    | .group p .parenthesis content :: r => do
      let block ← parseAll S n content
      let (as, input) ← armsWith S isMeta n input (dropComma r)
      some ((attr, .mk pat guard (some p) block) :: as, input)
    | r => do
      let (block, r) ← parseInner S n true r
      let (as, input) ← armsWith S isMeta n input (dropComma r)
      some ((attr, .mk pat guard none block) :: as, input)

/-- `parse_match`, genco-macros/src/quote.rs 188-245, behind `match`. What is left of `input` at
the end is an error (`parse_expression`, 288-334, is all there is inside the parentheses). -/
def parseMatch (S : Syn) (isMeta : List TT → Bool) (n : Nat) (ts : List TT) : Option (List TT × List MatchArm) := do
  let (e, r) ← S.expr ts
  match r with
  | .group _ .brace body :: input => do
    let (as, input) ← armsWith S isMeta n input body
    match input with
    | [] => some (e, as)
    | _ => none
  | _ => none

/-- `encode_match`, genco-macros/src/encoder.rs 286-308, writes the attributes before each arm; the
compiler drops an arm with an attribute that is not `active` (`#[cfg(…)]` that does not hold). -/
def encodeMatch (active : List TT → Bool) (cur : Cur) (e : List TT) (as : List MatchArm) : Node (List TT) :=
  .select cur e ((as.filter (fun a => a.1.all active)).map Prod.snd)

end Genco.Macro
