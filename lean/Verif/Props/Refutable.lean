import Verif.Proofs.Refutable
import Verif.Props.Macro

/-!
# Joined loops whose pattern does not take every element
-/

set_option autoImplicit false

namespace Genco.Props

open Spec Spec.MacroFile Macro

variable {ι E Env : Type}

namespace RefutableSample

/-- Lists of optional texts; the pattern is `Some(x)`, the value the text bound. -/
def host (l : List (Option Str)) : LetHost Str Str Str where
  rest := {
    value ρ _ := [.append (.literal (.box ρ))]
    scope _ _ := []
    iter _ _ _ := []
    test _ _ := none
    pick _ _ _ _ := none
    bind ρ _ _ := ρ }
  items _ _ _ := l

/-- `$(for Some(x) in l join (, ) => $x)` -/
def source : List (Node Str) :=
  [.joined ⟨⟨1, 0⟩, ⟨1, 40⟩⟩ [] [] ⟨⟨1, 20⟩, ⟨1, 24⟩⟩ [MacroSample.tree 1 21 ","] [.eval ⟨⟨1, 27⟩, ⟨1, 29⟩⟩ ['x']]]

/-- The lines rendered. -/
def out (l : List (Option Str)) : Option (List Str) :=
  match Macro.quote (ι := Str) none source with
  | .ok (_, ss) => toVec MacroSample.lang MacroSample.cfg (history (letBlock (host l) [] ss)).items
  | .error _ => none

end RefutableSample

/-- C94. Where the patterns of loops take every element, the code means what it means in the main
model. -/
theorem C94_irrefutable (H : LetHost ι E Env) (h : ∀ ρ p e, H.items ρ p e = (H.rest.iter ρ p e).map some)
    (ρ : Env) (ss : List (Stmt ι E)) : letBlock H ρ ss = runBlock H.rest ρ ss := letBlock_eq H h ρ ss

/-- C94. A joined loop runs the body for the elements in front of the first one the pattern does
not take, and the separator between them. If there is such an element, the separator is
written behind the last one as well. -/
theorem C94_join_partial (H : LetHost ι E Env) (cur : Cur) (pat iter : E) (paren : Cur) (sep body : List (Node E))
    (r : Bool) (ss : List (Stmt ι E))
    (h : Macro.quote none [.joined cur pat iter paren sep body] = .ok (r, ss)) :
    ∃ rb b rs s, Macro.quote none body = .ok (rb, b) ∧ Macro.quote (some paren) sep = .ok (rs, s) ∧
      ∀ ρ, letBlock H ρ ss = alternate ((taken (H.items ρ pat iter)).map (fun ρ' => letBlock H ρ' b))
          ((taken (H.items ρ pat iter)).dropLast.map (fun ρ' => letBlock H (leave H.rest ρ' b) s)) ++
        (if (H.items ρ pat iter).any Option.isNone then
          ((taken (H.items ρ pat iter)).getLast?).elim [] (fun ρ' => letBlock H (leave H.rest ρ' b) s) else []) := by
  obtain ⟨e0, h0, h⟩ := ok_bind (x := nodes (startEnc none) [.joined cur pat iter paren sep body])
    (f := Enc.intoOutput) h
  obtain ⟨e1, h1, h2⟩ := ok_bind (x := node (startEnc none) (.joined cur pat iter paren sep body))
    (f := fun e => nodes e []) h0
  cases h2
  obtain ⟨e2, h2, h3⟩ := ok_bind h1
  obtain ⟨⟨rs, s⟩, h3, h4⟩ := ok_bind h3
  obtain ⟨e3, h5, h6⟩ := ok_bind h4
  obtain ⟨⟨rb, b⟩, h6, h7⟩ := ok_bind h6
  refine ⟨rb, b, rs, s, ?_, ?_, ?_⟩
  · show (nodes (startEnc none) body).bind _ = _
    rw [h5]; exact h6
  · show (nodes (startEnc (some paren)) sep).bind _ = _
    rw [h2]; exact h3
  · intro ρ
    cases h7
    cases h
    show (letStmt H ρ (.joinIn pat iter s b)).2 ++ [] = _
    rw [List.append_nil, letStmt]
    exact letLoop_eq _ _ _

example : RefutableSample.out [some ['a'], some ['b']] = some [['a', ',', ' ', 'b']] := by decide +kernel

/-- C94. A pattern that does not take every element leaves a separator with nothing behind it, and
the elements it would take behind that one are left out. -/
theorem C94_witness :
    RefutableSample.out [some ['a'], none, some ['b']] = some [['a', ',']] := by decide +kernel

end Genco.Props
