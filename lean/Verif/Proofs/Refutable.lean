import Verif.Model.Refutable
import Verif.Spec.Refutable

/-!
# Loops whose pattern does not take every element
-/

set_option autoImplicit false

namespace Genco.Macro

open Spec Spec.MacroFile

variable {ι E Env : Type}

/-- If all elements are taken, the loop is the one of the main model. -/
theorem letLoop_some (body sep : Env → List (Call ι)) (l : List Env) :
    letLoop body sep (l.map some) = peekLoop body sep l := by
  induction l with
  | nil => rfl
  | cons x l ih =>
    rw [List.map_cons, letLoop, peekLoop, ih]
    cases l <;> rfl

/-- The bodies of the elements taken with separators between, and one behind the last if there
is an element the pattern does not take. -/
theorem letLoop_eq (body sep : Env → List (Call ι)) (l : List (Option Env)) :
    letLoop body sep l = alternate ((taken l).map body) ((taken l).dropLast.map sep) ++
      (if l.any Option.isNone then ((taken l).getLast?).elim [] sep else []) := by
  induction l with
  | nil => rfl
  | cons x l ih =>
    cases x with
    | none => simp [letLoop, taken, alternate]
    | some x =>
      rw [letLoop, ih]
      cases l with
      | nil => simp [taken, alternate]
      | cons y l =>
        cases y with
        | none => simp [taken, alternate]
        | some y => simp [taken, alternate, -List.any_eq_true]

variable (H : LetHost ι E Env)

mutual

theorem letBlock_eq (h : ∀ ρ p e, H.items ρ p e = (H.rest.iter ρ p e).map some) (ρ : Env) :
    (ss : List (Stmt ι E)) → letBlock H ρ ss = runBlock H.rest ρ ss
  | [] => rfl
  | s :: ss => by
    rw [letBlock, runBlock, letStmt_eq h ρ s, letBlock_eq h _ ss]

theorem letStmt_eq (h : ∀ ρ p e, H.items ρ p e = (H.rest.iter ρ p e).map some) (ρ : Env) :
    (s : Stmt ι E) → letStmt H ρ s = runStmt H.rest ρ s
  | .call _ => rfl
  | .value _ => rfl
  | .scope _ _ => rfl
  | .bind _ _ => rfl
  | .forIn pat iter body => by
    simp only [letStmt, runStmt, h, letBlock_eq h _ body, List.filterMap_map]
    congr 2
    exact List.filterMap_some
  | .joinIn pat iter sep body => by
    simp only [letStmt, runStmt, h, letBlock_eq h _ body, letBlock_eq h _ sep, letLoop_some]
  | .ifThen c t => by simp only [letStmt, runStmt, letBlock_eq h _ t]
  | .ifElse c t e => by simp only [letStmt, runStmt, letBlock_eq h _ t, letBlock_eq h _ e]
  | .select e as => by simp only [letStmt, runStmt, letArms_eq h ρ e as]

theorem letArms_eq (h : ∀ ρ p e, H.items ρ p e = (H.rest.iter ρ p e).map some) (ρ : Env) (e : E) :
    (as : List (E × Option E × List (Stmt ι E))) → letArms H ρ e as = runArms H.rest ρ e as
  | [] => rfl
  | a :: as => by
    rw [letArms, runArms]
    cases H.rest.pick ρ e a.1 a.2.1 with
    | none => exact letArms_eq h ρ e as
    | some ρ' => exact letArm_eq h ρ' a

theorem letArm_eq (h : ∀ ρ p e, H.items ρ p e = (H.rest.iter ρ p e).map some) (ρ : Env) :
    (a : E × Option E × List (Stmt ι E)) → letArm H ρ a = runArm H.rest ρ a
  | (_, _, b) => letBlock_eq h ρ b

end

end Genco.Macro
