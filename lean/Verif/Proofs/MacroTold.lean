import Verif.Proofs.MacroLevel

/-!
# Quoted blocks without layout
-/

set_option autoImplicit false
set_option linter.unusedSectionVars false

namespace Genco.Macro

open Spec Spec.MacroFile

variable {ι E Env : Type}

theorem bare_append (a b : List (Mark ι)) : bare (a ++ b) = bare a ++ bare b := List.filter_append ..

theorem bare_text (s : Str) : bare (s.map (Mark.char (ι := ι))) = s.map .char := by
  induction s with
  | nil => rfl
  | cons c s ih => exact congrArg (_ :: ·) ih

theorem bare_ws (w : List WsCall) : bare (w.map (fun c => Mark.call (ι := ι) c.call)) = [] := by
  induction w with
  | nil => rfl
  | cons c w ih => cases c <;> exact ih

theorem bare_flatMap {α : Type} (l : List α) (f : α → List (Mark ι)) :
    bare (l.flatMap f) = l.flatMap (fun x => bare (f x)) := by
  induction l with
  | nil => rfl
  | cons x l ih => rw [List.flatMap_cons, bare_append, ih, List.flatMap_cons]

theorem behind_append (a b : List (Step ι Env)) : ∀ (ρ : Env), behind ρ (a ++ b) = behind (behind ρ a) b := by
  induction a with
  | nil => intro ρ; rfl
  | cons x a ih => intro ρ; exact ih _

theorem behind_ws (w : List WsCall) (ρ : Env) : behind (ι := ι) ρ (w.map Step.ws) = ρ := by
  induction w with
  | nil => rfl
  | cons c w ih => exact ih

/-- What steps do, without layout. -/
def sum (as : List (Step ι Env)) : Step ι Env := fun ρ => (behind ρ as, bare (perform ρ as))

theorem sum_append (a b : List (Step ι Env)) : sum (a ++ b) = andThen (sum a) (sum b) := by
  funext ρ
  show (_, _) = (_, _)
  rw [behind_append, perform_append, bare_append]
  rfl

theorem sum_ws (w : List WsCall) : sum (ι := ι) (Env := Env) (w.map Step.ws) = fun ρ => (ρ, []) := by
  funext ρ
  show (_, _) = (_, _)
  rw [behind_ws, perform_ws, bare_ws]

theorem andThen_nil (f : Step ι Env) : andThen f (fun ρ => (ρ, [])) = f := by
  funext ρ
  show (_, _ ++ []) = _
  rw [List.append_nil]

theorem nil_andThen (f : Step ι Env) : andThen (fun ρ => (ρ, [])) f = f := rfl

theorem andThen_assoc (f g h : Step ι Env) : andThen (andThen f g) h = andThen f (andThen g h) := by
  funext ρ
  show (_, _ ++ _ ++ _) = (_, _ ++ (_ ++ _))
  rw [List.append_assoc]
  rfl

/-- All steps of pieces. -/
def flat (ps : List (Cur × List (Step ι Env))) : List (Step ι Env) := ps.flatMap (·.2)

theorem laidOut_sum (finish : Option Pos) (ps : List (Cur × List (Step ι Env))) :
    ∀ (p : Nat) (past : List Nat) (stop : Pos) (as : List (Step ι Env)),
      laidOut Step.ws finish p past stop ps = some as → sum as = sum (flat ps) := by
  induction ps with
  | nil =>
    intro p past stop as h
    cases finish with
    | none =>
      simp only [laidOut, Option.some.injEq] at h
      subst h
      rw [sum_ws]
      rfl
    | some f =>
      simp only [laidOut, Option.map_eq_some_iff] at h
      obtain ⟨w, hw, rfl⟩ := h
      rw [sum_ws]
      rfl
  | cons q ps ih =>
    intro p past stop as h
    obtain ⟨cur, ev⟩ := q
    simp only [laidOut, Option.bind_eq_some_iff, Option.map_eq_some_iff] at h
    obtain ⟨w, hw, rest, hr, rfl⟩ := h
    have hr' : sum rest = sum (flat ps) := by
      split at hr
      · exact ih _ _ _ _ hr
      · exact ih _ _ _ _ hr
    rw [sum_append, sum_append, sum_ws, nil_andThen, hr', ← sum_append]
    rfl

theorem block_sum (span : Option (Pos × Pos)) (ps : List (Cur × List (Step ι Env))) (as : List (Step ι Env))
    (h : block Step.ws span ps = some as) : sum as = sum (flat ps) := by
  cases span with
  | some s => exact laidOut_sum _ ps _ _ _ as h
  | none =>
    cases ps with
    | nil => cases h; rfl
    | cons q ps =>
      obtain ⟨cur, ev⟩ := q
      simp only [block, Option.map_eq_some_iff] at h
      obtain ⟨rest, hr, rfl⟩ := h
      rw [sum_append, laidOut_sum _ ps _ _ _ _ hr, ← sum_append]
      rfl

theorem sum_text (s : Str) : sum (ι := ι) (Env := Env) (Step.text s) = fun ρ => (ρ, s.map .char) := by
  funext ρ
  show (_, _) = (_, _)
  have := perform_chars (ι := ι) ρ s []
  rw [List.append_nil] at this
  rw [this, perform, List.append_nil, bare_text]
  congr 1
  induction s with
  | nil => rfl
  | cons c s ih =>
    refine ih ?_
    have := perform_chars (ι := ι) ρ s []
    rwa [List.append_nil] at this

theorem sum_one (a : Step ι Env) : sum [a] = fun ρ => ((a ρ).1, bare (a ρ).2) := by
  funext ρ
  show (_, bare ((a ρ).2 ++ [])) = _
  rw [List.append_nil]
  rfl

theorem sum_solid (c : Call ι) (h : solid (.call c) = true) :
    sum (Env := Env) [Step.call c] = fun ρ => (ρ, [.call c]) := by
  rw [sum_one]
  funext ρ
  show (ρ, bare [Mark.call c]) = _
  rw [bare, List.filter_cons, if_pos h]
  rfl

theorem bare_join (as bs : List (Step ι Env)) (l : List Env) : bare (joinWith as bs l) =
    alternate (l.map (fun ρ => (sum as ρ).2)) (l.dropLast.map (fun ρ => (sum bs (sum as ρ).1).2)) := by
  induction l with
  | nil => rfl
  | cons x l ih =>
    cases l with
    | nil => rfl
    | cons y l =>
      rw [joinWith, bare_append, ih, perform_append, bare_append]
      rfl

theorem sum_around (a b : Call ι) (as : List (Step ι Env)) (ha : solid (.call a) = true) (hb : solid (.call b) = true) :
    sum (Step.call a :: as ++ [Step.call b]) = fun ρ => ((sum as ρ).1, .call a :: (sum as ρ).2 ++ [.call b]) := by
  rw [sum_append, show Step.call a :: as = [Step.call a] ++ as from rfl, sum_append, sum_solid _ ha, sum_solid _ hb]
  rfl

theorem between_some {a b : Pos} {s : Str} (h : between a b = some s) : s = List.replicate (b.column - a.column) ' ' := by
  unfold between at h
  split at h
  · cases h; rfl
  · cases h

variable (H : Host ι E Env)

mutual

theorem nodes_told : (ns : List (Node E)) → ∀ qs, stepsOf H ns = some qs → sum (flat qs) = told H ns
  | [], qs, h => by cases h; rfl
  | n :: ns, qs, h => by
    have h : ((stepOf H n).bind fun a => (stepsOf H ns).bind fun b => some (a ++ b)) = some qs := h
    simp only [Option.bind_eq_some_iff] at h
    obtain ⟨a, ha, b, hb, hab⟩ := h
    cases hab
    rw [flat, List.flatMap_append, sum_append]
    show andThen (sum (flat a)) (sum (flat b)) = _
    rw [node_told n a ha, nodes_told ns b hb, told]

theorem block_told : (ns : List (Node E)) → ∀ qs span as, stepsOf H ns = some qs → block .ws span qs = some as →
    sum as = told H ns
  | ns, qs, span, as, h, hb => by rw [block_sum span qs as hb, nodes_told ns qs h]

theorem node_told : (n : Node E) → ∀ qs, stepOf H n = some qs → sum (flat qs) = toldNode H n
  | .tree cur text, qs, h => by
    cases h
    show sum (Step.text text ++ []) = _
    rw [List.append_nil, sum_text, toldNode]
  | .escape cur, qs, h => by
    cases h
    exact sum_text ['$']
  | .str cur paren ps, qs, h => by
    have h : ((strActs H (inner paren).1 (inner paren).2 ps).bind fun as =>
      some [(cur, Step.call (.append (.openQuote (ps.any isEval))) :: as ++ [Step.call (.append .closeQuote)])]) = some qs := h
    simp only [Option.bind_eq_some_iff] at h
    obtain ⟨as, ha, hq'⟩ := h
    cases hq'
    show sum ((Step.call (.append (.openQuote (ps.any isEval))) :: as ++ [Step.call (.append .closeQuote)]) ++ []) = _
    rw [List.append_nil, sum_around _ _ _ rfl rfl, parts_told ps _ _ as ha, toldNode]
  | .control cur k, qs, h => by
    cases h
    cases k <;> rfl
  | .quoted cur s, qs, h => by
    cases h
    show sum ((Step.call (.append (.openQuote false)) :: Step.text s ++ [Step.call (.append .closeQuote)]) ++ []) = _
    rw [List.append_nil, sum_around _ _ _ rfl rfl, sum_text, toldNode]
  | .literal cur s, qs, h => by
    cases h
    show sum (Step.text s ++ []) = _
    rw [List.append_nil, sum_text, toldNode]
  | .eval cur e, qs, h => by
    cases h
    show sum [_] = _
    rw [sum_one, toldNode]
  | .scope cur bound content, qs, h => by
    cases h
    cases bound with
    | true => show sum [_] = _; rw [sum_one, toldNode]; rfl
    | false => rfl
  | .loop cur pat iter body, qs, h => by
    have h : ((stepsOf H body).bind fun x => (block .ws none x).bind fun as =>
      some [(cur, [fun ρ => (ρ, (H.iter ρ pat iter).flatMap (fun ρ' => perform ρ' as))])]) = some qs := h
    simp only [Option.bind_eq_some_iff] at h
    obtain ⟨x, hx, as, ha, hq'⟩ := h
    cases hq'
    show sum [_] = _
    rw [sum_one, toldNode, ← block_told body x none as hx ha]
    funext ρ
    dsimp only
    rw [bare_flatMap]
    rfl
  | .joined cur pat iter paren sep body, qs, h => by
    have h : ((stepsOf H sep).bind fun x => (block .ws (some (inner paren)) x).bind fun ss =>
      (stepsOf H body).bind fun y => (block .ws none y).bind fun as =>
        some [(cur, [fun ρ => (ρ, joinWith as ss (H.iter ρ pat iter))])]) = some qs := h
    simp only [Option.bind_eq_some_iff] at h
    obtain ⟨x, hx, ss, hs, y, hy, as, ha, hq'⟩ := h
    cases hq'
    show sum [_] = _
    rw [sum_one, toldNode, ← block_told body y none as hy ha, ← block_told sep x _ ss hx hs]
    funext ρ
    dsimp only
    rw [bare_join]
  | .ifThen cur c t, qs, h => by
    have h : ((stepsOf H t).bind fun x => (block .ws none x).bind fun as =>
      some [(cur, [fun ρ => (ρ, (H.test ρ c).elim [] (fun ρ' => perform ρ' as))])]) = some qs := h
    simp only [Option.bind_eq_some_iff] at h
    obtain ⟨x, hx, as, ha, hq'⟩ := h
    cases hq'
    show sum [_] = _
    rw [sum_one, toldNode, ← block_told t x none as hx ha]
    funext ρ
    dsimp only
    cases H.test ρ c <;> rfl
  | .ifElse cur c t e, qs, h => by
    have h : ((stepsOf H t).bind fun x => (block .ws none x).bind fun as =>
      (stepsOf H e).bind fun y => (block .ws none y).bind fun bs =>
      some [(cur, [fun ρ => (ρ, (H.test ρ c).elim (perform ρ bs) (fun ρ' => perform ρ' as))])]) = some qs := h
    simp only [Option.bind_eq_some_iff] at h
    obtain ⟨x, hx, as, ha, y, hy, bs, hb, hq'⟩ := h
    cases hq'
    show sum [_] = _
    rw [sum_one, toldNode, ← block_told t x none as hx ha, ← block_told e y none bs hy hb]
    funext ρ
    dsimp only
    cases H.test ρ c <;> rfl
  | .select cur e arms, qs, h => by
    have h : ((armActs H arms).bind fun as => some [(cur, [fun ρ => (ρ, chosen H ρ e as)])]) = some qs := h
    simp only [Option.bind_eq_some_iff] at h
    obtain ⟨as, ha, hq'⟩ := h
    cases hq'
    show sum [_] = _
    rw [sum_one, toldNode]
    funext ρ
    dsimp only
    rw [arms_told arms as ha]
  | .bind cur pat e, qs, h => by
    cases h
    rfl
  | .group cur d content, qs, h => by
    have key : ∀ (a b : Char) (c1 c2 : Cur), ((stepsOf H content).bind fun ps =>
        some ((c1, Step.text [a]) :: ps ++ [(c2, Step.text [b])])) = some qs →
        sum (flat qs) = fun ρ => ((told H content ρ).1, .char a :: (told H content ρ).2 ++ [.char b]) := by
      intro a b c1 c2 h
      simp only [Option.bind_eq_some_iff] at h
      obtain ⟨ps, hp, hq'⟩ := h
      cases hq'
      rw [← nodes_told content ps hp]
      have : flat ((c1, Step.text [a]) :: ps ++ [(c2, Step.text [b])]) =
          Step.text [a] ++ flat ps ++ Step.text [b] := by
        simp [flat]
      rw [this, sum_append, sum_append, sum_text, sum_text]
      rfl
    cases d
    · exact key _ _ _ _ h
    · exact key _ _ _ _ h
    · exact key _ _ _ _ h

theorem arms_told : (as : List (Arm E)) → ∀ bs, armActs H as = some bs → ∀ ρ e,
    bare (chosen H ρ e bs) = toldArms H e as ρ
  | [], bs, h, ρ, e => by cases h; rfl
  | .mk pat guard paren body :: as, bs, h, ρ, e => by
    have h : ((stepsOf H body).bind fun x => (block .ws (paren.map inner) x).bind fun a =>
      (armActs H as).bind fun b => some ((pat, guard, a) :: b)) = some bs := h
    simp only [Option.bind_eq_some_iff] at h
    obtain ⟨x, hx, a, ha, b, hb, hq'⟩ := h
    cases hq'
    rw [chosen, toldArms]
    cases H.pick ρ e pat guard with
    | some ρ' => rw [← block_told body x _ a hx ha]; rfl
    | none => exact arms_told as b hb ρ e

theorem parts_told : (ps : List (Part E)) → ∀ stop close as, strActs H stop close ps = some as →
    sum as = toldParts H stop close ps
  | [], stop, close, as, h => by
    simp only [strActs, Option.map_eq_some_iff] at h
    obtain ⟨s, hs, rfl⟩ := h
    rw [sum_text, between_some hs, List.map_replicate]
    rfl
  | p :: ps, stop, close, as, h => by
    have h : ((between stop (placeOf p).start).bind fun gap => (partActs H p).bind fun a =>
      (strActs H (placeOf p).stop close ps).bind fun b => some (Step.text gap ++ a ++ b)) = some as := h
    simp only [Option.bind_eq_some_iff] at h
    obtain ⟨gap, hg, a, ha, b, hb, hq'⟩ := h
    cases hq'
    rw [sum_append, sum_append, sum_text, part_told p a ha, parts_told ps _ _ b hb, between_some hg, List.map_replicate,
      andThen_assoc, toldParts]

theorem part_told : (p : Part E) → ∀ as, partActs H p = some as → sum as = toldPart H p
  | .dollar _, as, h => by cases h; exact sum_text ['$']
  | .constant _ s, as, h => by cases h; exact sum_text s
  | .raw _ e, as, h => by cases h; exact sum_one _
  | .ident _ name, as, h => by
    cases h
    rw [sum_around _ _ _ rfl rfl, sum_text]
    rfl
  | .stream _ span content, as, h => by
    have h : ((stepsOf H content).bind fun x => (block .ws (some (inner span)) x).bind fun as =>
      some (Step.call (.append .openEval) :: as ++ [Step.call (.append .closeEval)])) = some as := h
    simp only [Option.bind_eq_some_iff] at h
    obtain ⟨x, hx, bs, hb, hq'⟩ := h
    cases hq'
    rw [sum_around _ _ _ rfl rfl, block_told content x _ bs hx hb]
    rfl
  | .tt _ text, as, h => by cases h; exact sum_text text

end

end Genco.Macro
