import Verif.Model.Macro

/-!
# Loops whose pattern does not take every element

In `Verif.Model.Macro` the pattern of a loop takes every element. Rust demands that of `for`,
but the code generated for `join` is `while let Some(pat) = it.next()`, which takes any pattern
and ends at the first element the pattern does not take.
-/

set_option autoImplicit false

namespace Genco.Macro

variable {ι E Env : Type}

/-- The loop of the code generated for joined loops, genco-macros/src/encoder.rs 248-258. An
element is what the pattern binds, `none` if the pattern does not take it. -/
def letLoop (body sep : Env → List (Call ι)) : List (Option Env) → List (Call ι)
  | [] => []
  | none :: _ => []
  | some x :: it => body x ++ (if it.head?.isSome then sep x else []) ++ letLoop body sep it

/-- Meaning of the Rust code copied to the output, with patterns of loops that take some of the
elements only. The elements of `rest` are not used. -/
structure LetHost (ι E Env : Type) where
  rest : Host ι E Env
  /-- What the pattern makes of each element of the iterator. -/
  items : Env → E → E → List (Option Env)

section Run

variable (H : LetHost ι E Env)

mutual

/-- The calls a block makes on the receiver. -/
def letBlock (ρ : Env) : List (Stmt ι E) → List (Call ι)
  | [] => []
  | s :: ss => (letStmt ρ s).2 ++ letBlock (letStmt ρ s).1 ss

/-- The calls a statement makes, and the environment after it, as in `runStmt`. A `for` with a
pattern that does not take every element is an error of the compiler; here it skips them. -/
def letStmt (ρ : Env) : Stmt ι E → Env × List (Call ι)
  | .call c => (ρ, [c])
  | .value e => (ρ, H.rest.value ρ e)
  | .scope bound content => (ρ, if bound then H.rest.scope ρ content else [])
  | .forIn pat iter body => (ρ, ((H.items ρ pat iter).filterMap id).flatMap (fun ρ' => letBlock ρ' body))
  | .joinIn pat iter sep body =>
    (ρ, letLoop (fun ρ' => letBlock ρ' body) (fun ρ' => letBlock (leave H.rest ρ' body) sep) (H.items ρ pat iter))
  | .ifThen c t => (ρ, (H.rest.test ρ c).elim [] (fun ρ' => letBlock ρ' t))
  | .ifElse c t e => (ρ, (H.rest.test ρ c).elim (letBlock ρ e) (fun ρ' => letBlock ρ' t))
  | .select e as => (ρ, letArms ρ e as)
  | .bind pat e => (H.rest.bind ρ pat e, [])

/-- `match`, as in `runArms`. -/
def letArms (ρ : Env) (e : E) : List (E × Option E × List (Stmt ι E)) → List (Call ι)
  | [] => []
  | a :: as =>
    match H.rest.pick ρ e a.1 a.2.1 with
    | some ρ' => letArm ρ' a
    | none => letArms ρ e as

/-- The block of an arm. -/
def letArm (ρ : Env) : E × Option E × List (Stmt ι E) → List (Call ι)
  | (_, _, b) => letBlock ρ b

end

end Run

end Genco.Macro
