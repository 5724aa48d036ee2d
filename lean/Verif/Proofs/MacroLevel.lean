import Verif.Proofs.Macro
import Verif.Proofs.Tokens

/-!
# Indentation of quoted blocks
-/

set_option autoImplicit false
set_option linter.unusedSectionVars false

namespace Genco.Macro

open Spec Spec.MacroFile Tokens

variable {ι E Env : Type}

/-- Indentation asked for by a mark. -/
def markInd : Mark ι → Int
  | .char _ => 0
  | .call c => indSum (callItems c)

/-- The marks lead from one level to another and never below zero. -/
def Climb (d d' : Int) : List (Mark ι) → Prop
  | [] => d = d' ∧ 0 ≤ d
  | m :: ms => 0 ≤ d ∧ Climb (d + markInd m) d' ms

theorem Climb.nonneg {d d' : Int} {ms : List (Mark ι)} (h : Climb d d' ms) : 0 ≤ d := by
  cases ms with
  | nil => exact h.2
  | cons m ms => exact h.1

theorem Climb.append {d d' d'' : Int} {a b : List (Mark ι)} (h1 : Climb d d' a) (h2 : Climb d' d'' b) :
    Climb d d'' (a ++ b) := by
  induction a generalizing d with
  | nil => rw [h1.1]; exact h2
  | cons m a ih => exact ⟨h1.1, ih h1.2⟩

theorem Climb.lift {d d' : Int} {a : List (Mark ι)} (k : Int) (hk : 0 ≤ k) (h : Climb d d' a) :
    Climb (d + k) (d' + k) a := by
  induction a generalizing d with
  | nil => exact ⟨by rw [h.1], by have := h.2; omega⟩
  | cons m a ih =>
    refine ⟨by have := h.1; omega, ?_⟩
    have := ih h.2
    rwa [Int.add_right_comm] at this

theorem climb_chars (d d' : Int) (s : Str) (ms : List (Mark ι)) :
    Climb d d' (s.map Mark.char ++ ms) ↔ Climb d d' ms := by
  induction s with
  | nil => rfl
  | cons c s ih =>
    show 0 ≤ d ∧ Climb (d + 0) d' (s.map Mark.char ++ ms) ↔ _
    rw [Int.add_zero, ih]
    exact ⟨fun h => h.2, fun h => ⟨h.nonneg, h⟩⟩

theorem climb_text (d : Int) (hd : 0 ≤ d) (s : Str) : Climb d d (s.map (Mark.char (ι := ι))) := by
  have := (climb_chars (ι := ι) d d s []).2 ⟨rfl, hd⟩
  rwa [List.append_nil] at this

theorem climb_mark (d d' : Int) (c : Call ι) (ms : List (Mark ι)) :
    Climb d d' (markOf c ++ ms) ↔ 0 ≤ d ∧ Climb (d + indSum (callItems c)) d' ms := by
  have gen : markOf c = [.call c] →
      (Climb d d' (markOf c ++ ms) ↔ 0 ≤ d ∧ Climb (d + indSum (callItems c)) d' ms) := by
    intro h; rw [h]; rfl
  cases c with
  | append i =>
    cases i with
    | literal l =>
      cases l with
      | «static» s =>
        rw [show markOf (ι := ι) (.append (.literal (.static s))) = s.map .char from rfl, climb_chars]
        have h0 : indSum (callItems (ι := ι) (.append (.literal (.static s)))) = 0 := rfl
        rw [h0, Int.add_zero]
        exact ⟨fun h => ⟨h.nonneg, h⟩, fun h => h.2⟩
      | _ => exact gen rfl
    | _ => exact gen rfl
  | _ => exact gen rfl

theorem climb_marks (cs : List (Call ι)) (d d' : Int) : Climb d d' (marks cs) ↔
    d + indSum (cs.flatMap callItems) = d' ∧ ∀ p, p <+: cs → 0 ≤ d + indSum (p.flatMap callItems) := by
  induction cs generalizing d with
  | nil =>
    show (d = d' ∧ 0 ≤ d) ↔ _
    simp [indSum]
  | cons c cs ih =>
    rw [show marks (c :: cs) = markOf c ++ marks cs from rfl, climb_mark, ih, List.flatMap_cons, indSum_append,
      ← Int.add_assoc]
    constructor
    · rintro ⟨h0, h1, h2⟩
      refine ⟨h1, fun p hp => ?_⟩
      cases p with
      | nil => simpa [indSum] using h0
      | cons x p =>
        obtain ⟨rfl, hp'⟩ := List.cons_prefix_cons.1 hp
        rw [List.flatMap_cons, indSum_append, ← Int.add_assoc]
        exact h2 p hp'
    · rintro ⟨h1, h2⟩
      refine ⟨?_, h1, fun p hp => ?_⟩
      · simpa [indSum] using h2 [] (List.nil_prefix)
      · have := h2 (c :: p) (List.cons_prefix_cons.2 ⟨rfl, hp⟩)
        rwa [List.flatMap_cons, indSum_append, ← Int.add_assoc] at this

theorem balanced_iff (cs : List (Call ι)) : Balanced cs ↔ Climb 0 0 (marks cs) := by
  rw [climb_marks]
  simp [Balanced]

/-! ## Steps -/

/-- The steps lead from one level to another. -/
def Climbs (d d' : Int) (as : List (Step ι Env)) : Prop := ∀ ρ, Climb d d' (perform ρ as)

/-- What variables mean behind steps. -/
def behind (ρ : Env) : List (Step ι Env) → Env
  | [] => ρ
  | a :: as => behind (a ρ).1 as

theorem perform_append (a b : List (Step ι Env)) : ∀ (ρ : Env),
    perform ρ (a ++ b) = perform ρ a ++ perform (behind ρ a) b := by
  induction a with
  | nil => intro ρ; rfl
  | cons x a ih =>
    intro ρ
    rw [List.cons_append, perform, ih, perform, behind, List.append_assoc]

theorem Climbs.append {d d' d'' : Int} {a b : List (Step ι Env)} (h1 : Climbs d d' a) (h2 : Climbs d' d'' b) :
    Climbs d d'' (a ++ b) := by
  intro ρ
  rw [perform_append]
  exact (h1 ρ).append (h2 _)

theorem Climbs.lift {a : List (Step ι Env)} (d : Nat) (h : Climbs 0 0 a) : Climbs d d a := by
  intro ρ
  have := (h ρ).lift (d : Int) (by omega)
  rwa [Int.zero_add] at this

theorem climbs_nil : Climbs (ι := ι) (Env := Env) 0 0 [] := fun _ => ⟨rfl, by omega⟩

theorem climbs_text (s : Str) : Climbs (ι := ι) (Env := Env) 0 0 (Step.text s) := by
  intro ρ
  have := perform_chars (ι := ι) ρ s []
  rw [List.append_nil] at this
  rw [this]
  exact (climb_chars 0 0 s _).2 ⟨rfl, by omega⟩

theorem climbs_one {a : Step ι Env} (h : ∀ ρ, Climb 0 0 (a ρ).2) : Climbs 0 0 [a] := by
  intro ρ
  show Climb 0 0 ((a ρ).2 ++ [])
  rw [List.append_nil]
  exact h ρ

theorem climbs_call (c : Call ι) (h : indSum (callItems c) = 0) : Climbs (Env := Env) 0 0 [Step.call c] :=
  climbs_one fun _ => ⟨by omega, by
    show 0 + indSum (callItems c) = 0 ∧ 0 ≤ 0 + indSum (callItems c)
    omega⟩

theorem perform_ws (w : List WsCall) (ρ : Env) :
    perform (ι := ι) ρ (w.map Step.ws) = w.map (fun c => Mark.call c.call) := by
  induction w with
  | nil => rfl
  | cons c w ih => exact congrArg (_ :: ·) ih

/-- Indentation asked for by a whitespace call. -/
def wsInd : WsCall → Int
  | .indent => 1
  | .unindent => -1
  | _ => 0

theorem wsInd_eq (c : WsCall) : markInd (ι := ι) (.call c.call) = wsInd c := by cases c <;> rfl

theorem climb_unindents (n : Nat) (d : Nat) (blank : Bool) :
    Climb (ι := ι) ((d + n : Nat) : Int) d (((List.replicate n (WsCall.unindent :: (if blank then [.line] else []))).flatten).map
      (fun c => Mark.call c.call)) := by
  induction n with
  | zero => exact ⟨rfl, by omega⟩
  | succ n ih =>
    rw [List.replicate_succ, List.flatten_cons, List.map_append]
    refine Climb.append (d' := ((d + n : Nat) : Int)) ?_ ih
    have e1 : ((d + (n + 1) : Nat) : Int) + -1 = ((d + n : Nat) : Int) := by omega
    cases blank with
    | true =>
      refine ⟨by omega, ?_⟩
      show Climb (_ + -1) _ _
      rw [e1]
      exact ⟨by omega, by show _ + 0 = _; omega, by show 0 ≤ _ + (0 : Int); omega⟩
    | false =>
      refine ⟨by omega, ?_⟩
      show Climb (_ + -1) _ _
      rw [e1]
      exact ⟨rfl, by omega⟩

theorem climb_breakCalls (old new : Nat) (h : new ≤ old + 1) (blank : Bool) :
    Climb (ι := ι) old new ((breakCalls old new blank).map (fun c => Mark.call c.call)) := by
  unfold breakCalls
  by_cases h1 : old < new
  · rw [if_pos h1]
    have e1 : (old : Int) + 1 = new := by omega
    refine ⟨by omega, ?_⟩
    show Climb (_ + 1) _ _
    rw [e1]
    cases blank with
    | true => exact ⟨by omega, by show _ + 0 = _; omega, by show 0 ≤ _ + (0 : Int); omega⟩
    | false => exact ⟨rfl, by omega⟩
  · rw [if_neg h1]
    by_cases h2 : old = new
    · rw [if_pos h2]
      subst h2
      cases blank <;> exact ⟨by omega, by show _ + 0 = _; omega, by show 0 ≤ _ + (0 : Int); omega⟩
    · rw [if_neg h2]
      have := climb_unindents (ι := ι) (old - new) new blank
      rwa [show new + (old - new) = old by omega] at this

/-- Level behind a gap. -/
def levelAt (p : Nat) (past : List Nat) (stop start : Pos) : Nat :=
  if stop.line = start.line then depth p past else depth start.column (p :: past)

theorem depth_next (c p : Nat) (past : List Nat) : depth c (p :: past) ≤ depth p past + 1 := by
  unfold depth
  by_cases h : p < c
  · rw [enclosing_in _ _ _ h]; simp
  · by_cases h2 : c < p
    · rw [enclosing_out _ _ _ h2]
      have := (List.dropWhile_sublist (l := enclosing p past) (fun x => decide (c ≤ x))).length_le
      omega
    · have : c = p := by omega
      subst this
      rw [enclosing_same]; omega

theorem climbs_gap {p : Nat} {past : List Nat} {stop start : Pos} {w : List WsCall}
    (h : gapBefore p past stop start = some w) :
    Climbs (ι := ι) (Env := Env) (depth p past) (levelAt p past stop start) (w.map Step.ws) := by
  intro ρ
  rw [perform_ws]
  unfold gapBefore at h
  unfold levelAt
  by_cases h1 : stop.line = start.line
  · rw [if_pos h1]
    rw [if_pos h1, Option.some.injEq] at h
    subst h
    split
    · exact ⟨by omega, by show _ + 0 = _; omega, by show 0 ≤ _ + (0 : Int); omega⟩
    · exact ⟨rfl, by omega⟩
  · rw [if_neg h1]
    rw [if_neg h1] at h
    by_cases h2 : start.line < stop.line
    · rw [if_pos h2] at h; cases h
    rw [if_neg h2] at h
    by_cases h3 : Falls start.column p past
    · rw [if_pos h3, Option.some.injEq] at h
      subst h
      have : depth p past = 0 := by unfold depth; rw [h3.2]; rfl
      have h' : depth start.column (p :: past) = 0 := by
        unfold depth; rw [enclosing_out _ _ _ h3.1, h3.2]; rfl
      rw [this, h']
      exact ⟨rfl, by omega⟩
    · rw [if_neg h3] at h
      by_cases h4 : Legal start.column p past
      · rw [if_pos h4, Option.some.injEq] at h
        subst h
        exact climb_breakCalls _ _ (depth_next _ _ _) _
      · rw [if_neg h4] at h; cases h

theorem climbs_unindents (d : Nat) :
    Climbs (ι := ι) (Env := Env) d 0 ((List.replicate d WsCall.unindent).map Step.ws) := by
  intro ρ
  rw [perform_ws]
  have := climb_unindents (ι := ι) d 0 false
  rw [Nat.zero_add] at this
  have e : ∀ n : Nat, (List.replicate n [WsCall.unindent]).flatten = List.replicate n WsCall.unindent := by
    intro n
    induction n with
    | zero => rfl
    | succ n ih => rw [List.replicate_succ, List.flatten_cons, List.replicate_succ, ih]; rfl
  rwa [show (WsCall.unindent :: (if false = true then [WsCall.line] else [])) = [WsCall.unindent] from rfl, e] at this

theorem laidOut_level (finish : Option Pos) (ps : List (Cur × List (Step ι Env))) :
    ∀ (p : Nat) (past : List Nat) (stop : Pos) (as : List (Step ι Env)), (∀ q ∈ ps, Climbs 0 0 q.2) →
      laidOut Step.ws finish p past stop ps = some as → Climbs (depth p past) 0 as := by
  induction ps with
  | nil =>
    intro p past stop as _ h
    cases finish with
    | none =>
      simp only [laidOut, Option.some.injEq] at h
      subst h
      exact climbs_unindents _
    | some f =>
      simp only [laidOut, Option.map_eq_some_iff] at h
      obtain ⟨w, hw, rfl⟩ := h
      rw [List.map_append]
      exact (climbs_gap hw).append (climbs_unindents _)
  | cons q ps ih =>
    intro p past stop as hq h
    obtain ⟨cur, ev⟩ := q
    simp only [laidOut, Option.bind_eq_some_iff, Option.map_eq_some_iff] at h
    obtain ⟨w, hw, rest, hr, rfl⟩ := h
    have h1 := climbs_gap (ι := ι) (Env := Env) hw
    have h2 := (hq (cur, ev) (by simp)).lift (levelAt p past stop cur.start)
    refine (h1.append h2).append ?_
    have hps : ∀ q ∈ ps, Climbs 0 0 q.2 := fun q hm => hq q (by simp [hm])
    unfold levelAt
    by_cases hl : stop.line = cur.start.line
    · rw [if_pos hl] at hr ⊢
      exact ih _ _ _ _ hps hr
    · rw [if_neg hl] at hr ⊢
      exact ih _ _ _ _ hps hr

theorem block_level (span : Option (Pos × Pos)) (ps : List (Cur × List (Step ι Env))) (as : List (Step ι Env))
    (hp : ∀ q ∈ ps, Climbs 0 0 q.2) (h : block Step.ws span ps = some as) : Climbs 0 0 as := by
  cases span with
  | some s => exact laidOut_level _ ps s.1.column [] s.1 as hp h
  | none =>
    cases ps with
    | nil => cases h; exact climbs_nil
    | cons q ps =>
      obtain ⟨cur, ev⟩ := q
      simp only [block, Option.map_eq_some_iff] at h
      obtain ⟨rest, hr, rfl⟩ := h
      exact (hp (cur, ev) (by simp)).append (laidOut_level _ ps _ [] _ _ (fun q hm => hp q (by simp [hm])) hr)

theorem joinWith_level {as bs : List (Step ι Env)} (ha : Climbs 0 0 as) (hb : Climbs 0 0 bs) (l : List Env) :
    Climb 0 0 (joinWith as bs l) := by
  induction l with
  | nil => exact ⟨rfl, by omega⟩
  | cons x l ih =>
    cases l with
    | nil => exact ha x
    | cons y l => exact ((ha.append hb) x).append ih

theorem flatMap_level {α : Type} (l : List α) (f : α → List (Mark ι)) (h : ∀ x, Climb 0 0 (f x)) :
    Climb 0 0 (l.flatMap f) := by
  induction l with
  | nil => exact ⟨rfl, by omega⟩
  | cons x l ih => exact (h x).append ih

theorem chosen_level (H : Host ι E Env) (ρ : Env) (e : E) (bs : List (E × Option E × List (Step ι Env)))
    (h : ∀ b ∈ bs, Climbs 0 0 b.2.2) : Climb 0 0 (chosen H ρ e bs) := by
  induction bs with
  | nil => exact ⟨rfl, by omega⟩
  | cons b bs ih =>
    obtain ⟨pat, guard, as⟩ := b
    rw [chosen]
    cases H.pick ρ e pat guard with
    | some ρ' => exact h (pat, guard, as) (by simp) ρ'
    | none => exact ih (fun b hb => h b (by simp [hb]))

section

variable (H : Host ι E Env) (hv : ∀ ρ e, Balanced (H.value ρ e)) (hs : ∀ ρ e, Balanced (H.scope ρ e))
include hv hs

mutual

theorem nodes_level : (ns : List (Node E)) → ∀ qs, stepsOf H ns = some qs → ∀ q ∈ qs, Climbs 0 0 q.2
  | [], qs, h, q, hq => by cases h; cases hq
  | n :: ns, qs, h, q, hq => by
    have h : ((stepOf H n).bind fun a => (stepsOf H ns).bind fun b => some (a ++ b)) = some qs := h
    simp only [Option.bind_eq_some_iff] at h
    obtain ⟨a, ha, b, hb, hab⟩ := h
    cases hab
    rcases List.mem_append.1 hq with hq | hq
    · exact node_level n a ha q hq
    · exact nodes_level ns b hb q hq

theorem node_level : (n : Node E) → ∀ qs, stepOf H n = some qs → ∀ q ∈ qs, Climbs 0 0 q.2
  | .tree cur text, qs, h, q, hq => by
    cases h; cases List.mem_singleton.1 hq; exact climbs_text _
  | .escape cur, qs, h, q, hq => by
    cases h; cases List.mem_singleton.1 hq; exact climbs_text _
  | .str cur paren ps, qs, h, q, hq => by
    have h : ((strActs H (inner paren).1 (inner paren).2 ps).bind fun as =>
      some [(cur, Step.call (.append (.openQuote (ps.any isEval))) :: as ++ [Step.call (.append .closeQuote)])]) = some qs := h
    simp only [Option.bind_eq_some_iff] at h
    obtain ⟨as, ha, hq'⟩ := h
    cases hq'; cases List.mem_singleton.1 hq
    exact (Climbs.append (climbs_call _ rfl) (parts_level ps _ _ as ha)).append (climbs_call _ rfl)
  | .control cur k, qs, h, q, hq => by
    cases h; cases List.mem_singleton.1 hq
    cases k <;> exact climbs_call _ rfl
  | .quoted cur s, qs, h, q, hq => by
    cases h; cases List.mem_singleton.1 hq
    exact (Climbs.append (climbs_call _ rfl) (climbs_text s)).append (climbs_call _ rfl)
  | .literal cur s, qs, h, q, hq => by
    cases h; cases List.mem_singleton.1 hq; exact climbs_text _
  | .eval cur e, qs, h, q, hq => by
    cases h; cases List.mem_singleton.1 hq
    exact climbs_one fun ρ => (balanced_iff _).1 (hv ρ e)
  | .scope cur bound content, qs, h, q, hq => by
    cases h; cases List.mem_singleton.1 hq
    cases bound with
    | true => exact climbs_one fun ρ => (balanced_iff _).1 (hs ρ content)
    | false => exact climbs_nil
  | .loop cur pat iter body, qs, h, q, hq => by
    have h : ((stepsOf H body).bind fun x => (block .ws none x).bind fun as =>
      some [(cur, [fun ρ => (ρ, (H.iter ρ pat iter).flatMap (fun ρ' => perform ρ' as))])]) = some qs := h
    simp only [Option.bind_eq_some_iff] at h
    obtain ⟨x, hx, as, ha, hq'⟩ := h
    cases hq'; cases List.mem_singleton.1 hq
    have := block_level none x as (nodes_level body x hx) ha
    exact climbs_one fun ρ => flatMap_level _ _ this
  | .joined cur pat iter paren sep body, qs, h, q, hq => by
    have h : ((stepsOf H sep).bind fun y => (block .ws (some (inner paren)) y).bind fun ss =>
      (stepsOf H body).bind fun x => (block .ws none x).bind fun as =>
      some [(cur, [fun ρ => (ρ, joinWith as ss (H.iter ρ pat iter))])]) = some qs := h
    simp only [Option.bind_eq_some_iff] at h
    obtain ⟨y, hy, ss, hss, x, hx, as, ha, hq'⟩ := h
    cases hq'; cases List.mem_singleton.1 hq
    have h1 := block_level none x as (nodes_level body x hx) ha
    have h2 := block_level _ y ss (nodes_level sep y hy) hss
    exact climbs_one fun ρ => joinWith_level h1 h2 _
  | .ifThen cur c t, qs, h, q, hq => by
    have h : ((stepsOf H t).bind fun x => (block .ws none x).bind fun as =>
      some [(cur, [fun ρ => (ρ, (H.test ρ c).elim [] (fun ρ' => perform ρ' as))])]) = some qs := h
    simp only [Option.bind_eq_some_iff] at h
    obtain ⟨x, hx, as, ha, hq'⟩ := h
    cases hq'; cases List.mem_singleton.1 hq
    have := block_level none x as (nodes_level t x hx) ha
    refine climbs_one fun ρ => ?_
    dsimp only
    cases H.test ρ c with
    | some ρ' => exact this ρ'
    | none => exact ⟨rfl, by omega⟩
  | .ifElse cur c t e, qs, h, q, hq => by
    have h : ((stepsOf H t).bind fun x => (block .ws none x).bind fun as =>
      (stepsOf H e).bind fun y => (block .ws none y).bind fun bs =>
      some [(cur, [fun ρ => (ρ, (H.test ρ c).elim (perform ρ bs) (fun ρ' => perform ρ' as))])]) = some qs := h
    simp only [Option.bind_eq_some_iff] at h
    obtain ⟨x, hx, as, ha, y, hy, bs, hb, hq'⟩ := h
    cases hq'; cases List.mem_singleton.1 hq
    have h1 := block_level none x as (nodes_level t x hx) ha
    have h2 := block_level none y bs (nodes_level e y hy) hb
    refine climbs_one fun ρ => ?_
    dsimp only
    cases H.test ρ c with
    | some ρ' => exact h1 ρ'
    | none => exact h2 ρ
  | .select cur e as, qs, h, q, hq => by
    have h : ((armActs H as).bind fun bs => some [(cur, [fun ρ => (ρ, chosen H ρ e bs)])]) = some qs := h
    simp only [Option.bind_eq_some_iff] at h
    obtain ⟨bs, hb, hq'⟩ := h
    cases hq'; cases List.mem_singleton.1 hq
    have := arms_level as bs hb
    exact climbs_one fun ρ => chosen_level H ρ e bs this
  | .bind cur pat e, qs, h, q, hq => by
    cases h; cases List.mem_singleton.1 hq
    exact climbs_one fun ρ => ⟨rfl, by omega⟩
  | .group cur d content, qs, h, q, hq => by
    have h : ((stepsOf H content).bind (fun ps =>
        some ((cur.firstCharacter, Step.text [d.encodeOpen]) :: ps ++
          [(cur.lastCharacter, Step.text [d.encodeClose])]))) = some qs := by
      rw [← h]; cases d <;> rfl
    simp only [Option.bind_eq_some_iff] at h
    obtain ⟨x, hx, hq'⟩ := h
    cases hq'
    rcases List.mem_append.1 hq with hq | hq
    · rcases List.mem_cons.1 hq with rfl | hq
      · exact climbs_text _
      · exact nodes_level content x hx q hq
    · cases List.mem_singleton.1 hq
      exact climbs_text _

theorem arms_level : (as : List (Arm E)) → ∀ bs, armActs H as = some bs → ∀ b ∈ bs, Climbs 0 0 b.2.2
  | [], bs, h, b, hb => by cases h; cases hb
  | .mk pat guard paren body :: as, bs, h, b, hb => by
    have h : ((stepsOf H body).bind fun x => (block .ws (paren.map inner) x).bind fun a =>
      (armActs H as).bind fun b => some ((pat, guard, a) :: b)) = some bs := h
    simp only [Option.bind_eq_some_iff] at h
    obtain ⟨x, hx, a, ha, b', hb', e⟩ := h
    cases e
    rcases List.mem_cons.1 hb with rfl | hb
    · exact block_level _ x a (nodes_level body x hx) ha
    · exact arms_level as b' hb' b hb

theorem parts_level : (ps : List (Part E)) → ∀ stop close as, strActs H stop close ps = some as → Climbs 0 0 as
  | [], stop, close, as, h => by
    have h : (between stop close).map Step.text = some as := h
    rw [Option.map_eq_some_iff] at h
    obtain ⟨s, -, rfl⟩ := h
    exact climbs_text s
  | p :: ps, stop, close, as, h => by
    have h : ((between stop (placeOf p).start).bind fun gap => (partActs H p).bind fun a =>
      (strActs H (placeOf p).stop close ps).bind fun b => some (Step.text gap ++ a ++ b)) = some as := h
    simp only [Option.bind_eq_some_iff] at h
    obtain ⟨gap, hg, a, ha, b, hb, e⟩ := h
    cases e
    exact ((climbs_text gap).append (part_level p a ha)).append (parts_level ps _ _ b hb)

theorem part_level : (p : Part E) → ∀ as, partActs H p = some as → Climbs 0 0 as
  | .dollar _, as, h => by cases h; exact climbs_text _
  | .constant _ s, as, h => by cases h; exact climbs_text _
  | .tt _ s, as, h => by cases h; exact climbs_text _
  | .raw _ e, as, h => by
    cases h
    exact climbs_one fun ρ => (balanced_iff _).1 (hv ρ e)
  | .ident _ name, as, h => by
    cases h
    exact (Climbs.append (climbs_call _ rfl) (climbs_text name)).append (climbs_call _ rfl)
  | .stream _ span content, as, h => by
    have h : ((stepsOf H content).bind fun x => (block .ws (some (inner span)) x).bind fun as =>
      some (Step.call (.append .openEval) :: as ++ [Step.call (.append .closeEval)])) = some as := h
    simp only [Option.bind_eq_some_iff] at h
    obtain ⟨x, hx, bs, hb, e⟩ := h
    cases e
    have := block_level _ x bs (nodes_level content x hx) hb
    exact (Climbs.append (climbs_call _ rfl) this).append (climbs_call _ rfl)

end

end

end Genco.Macro
