import Verif.Spec.MacroPlace
import Verif.Proofs.Macro
import Verif.Proofs.MacroEmpty

/-!
# Macros on one line, and macros that go down the page
-/

set_option autoImplicit false

namespace Genco.Macro

open Spec Spec.MacroFile

variable {ι E Env : Type}

/-! ## All on one line -/

/-- No mark is a break. -/
def Calm (ms : List (Mark ι)) : Prop := ∀ c, .call c ∈ ms → ¬ BreakCall c

theorem calm_nil : Calm ([] : List (Mark ι)) := fun _ h => by cases h

theorem Calm.append {a b : List (Mark ι)} (ha : Calm a) (hb : Calm b) : Calm (a ++ b) :=
  fun c h => (List.mem_append.1 h).elim (ha c) (hb c)

theorem calm_marks (cs : List (Call ι)) : Calm (marks cs) ↔ ∀ c ∈ cs, ¬ BreakCall c := by
  constructor
  · intro h c hc hb
    refine h c (List.mem_flatMap.2 ⟨c, hc, ?_⟩) hb
    rcases hb with rfl | rfl | rfl | rfl <;> exact List.mem_singleton.2 rfl
  · intro h c hc hb
    obtain ⟨d, hd, hm⟩ := List.mem_flatMap.1 hc
    unfold markOf at hm
    split at hm
    · simp at hm
    · cases List.mem_singleton.1 hm
      exact h _ hd hb

/-- Steps without breaks, if `breaks` is not given. -/
def CalmSteps (breaks : Bool) (as : List (Step ι Env)) : Prop :=
  breaks = false → ∀ a ∈ as, ∀ ρ, Calm (a ρ).2

theorem CalmSteps.append {breaks : Bool} {a b : List (Step ι Env)} (ha : CalmSteps breaks a)
    (hb : CalmSteps breaks b) : CalmSteps breaks (a ++ b) :=
  fun h x hx => (List.mem_append.1 hx).elim (ha h x) (hb h x)

theorem calmSteps_text (breaks : Bool) (s : Str) : CalmSteps breaks (Step.text (ι := ι) (Env := Env) s) := by
  intro _ a ha ρ c hc
  obtain ⟨x, -, rfl⟩ := List.mem_map.1 ha
  cases List.mem_singleton.1 hc

theorem calmSteps_one {breaks : Bool} {a : Step ι Env} (h : breaks = false → ∀ ρ, Calm (a ρ).2) :
    CalmSteps breaks [a] := by
  intro hb x hx ρ
  cases List.mem_singleton.1 hx
  exact h hb ρ

theorem calmSteps_call (breaks : Bool) (c : Call ι) (h : ¬ BreakCall c) :
    CalmSteps breaks [Step.call (Env := Env) c] := by
  refine calmSteps_one (fun _ _ d hd => ?_)
  cases List.mem_singleton.1 hd
  exact h

theorem calm_perform {as : List (Step ι Env)} (h : ∀ a ∈ as, ∀ ρ, Calm (a ρ).2) : ∀ ρ, Calm (perform ρ as) := by
  induction as with
  | nil => exact fun _ => calm_nil
  | cons a as ih =>
    intro ρ
    exact (h a (by simp) ρ).append (ih (fun x hx => h x (List.mem_cons_of_mem _ hx)) _)

/-- Pieces on a line. -/
def PiecesHere (l : Nat) (breaks : Bool) (qs : List (Cur × List (Step ι Env))) : Prop :=
  ∀ q ∈ qs, Here l q.1 ∧ CalmSteps breaks q.2

theorem gapBefore_here {p : Nat} {stop start : Pos} (h : stop.line = start.line) :
    gapBefore p [] stop start = some [] ∨ gapBefore p [] stop start = some [.space] := by
  unfold gapBefore
  rw [if_pos h]
  split
  · exact .inr rfl
  · exact .inl rfl

theorem laidOut_here (l : Nat) (breaks : Bool) (finish : Option Pos) (hf : ∀ f ∈ finish, f.line = l) (p : Nat)
    (qs : List (Cur × List (Step ι Env))) (hq : PiecesHere l breaks qs) : ∀ stop : Pos, stop.line = l →
    ∃ as, laidOut Step.ws finish p [] stop qs = some as ∧ CalmSteps breaks as := by
  have hws : ∀ w : List WsCall, w = [] ∨ w = [.space] →
      CalmSteps breaks (w.map (Step.ws (ι := ι) (Env := Env))) := by
    rintro w (rfl | rfl)
    · intro _ a ha; cases ha
    · exact calmSteps_call _ _ (by rintro (h | h | h | h) <;> cases h)
  induction qs with
  | nil =>
    intro stop hs
    cases finish with
    | none => exact ⟨_, rfl, hws [] (.inl rfl)⟩
    | some f =>
      have hl : stop.line = f.line := by rw [hs, hf f rfl]
      obtain ⟨w, hg, hw⟩ : ∃ w, gapBefore p [] stop f = some w ∧ (w = [] ∨ w = [.space]) := by
        rcases gapBefore_here (p := p) hl with h | h
        · exact ⟨_, h, .inl rfl⟩
        · exact ⟨_, h, .inr rfl⟩
      refine ⟨w.map Step.ws, ?_, hws w hw⟩
      unfold laidOut
      dsimp only
      rw [hg, Option.map_some, if_pos hl]
      show some ((w ++ []).map _) = _
      rw [List.append_nil]
  | cons q qs ih =>
    obtain ⟨cur, ev⟩ := q
    intro stop hs
    obtain ⟨⟨h1, h2⟩, h3⟩ := hq (cur, ev) (by simp)
    have hl : stop.line = cur.start.line := by rw [hs]; exact h1.symm
    obtain ⟨w, hg, hw⟩ : ∃ w, gapBefore p [] stop cur.start = some w ∧ (w = [] ∨ w = [.space]) := by
      rcases gapBefore_here (p := p) hl with h | h
      · exact ⟨_, h, .inl rfl⟩
      · exact ⟨_, h, .inr rfl⟩
    obtain ⟨as, ha, hc⟩ := ih (fun x hx => hq x (List.mem_cons_of_mem _ hx)) cur.stop h2
    refine ⟨w.map Step.ws ++ ev ++ as, ?_, ((hws w hw).append h3).append hc⟩
    unfold laidOut
    rw [hg, Option.bind_some, if_pos hl, ha]
    rfl

theorem block_here (l : Nat) (breaks : Bool) (span : Option Cur) (hs : ∀ c ∈ span, Here l c)
    (qs : List (Cur × List (Step ι Env))) (hq : PiecesHere l breaks qs) :
    ∃ as, block Step.ws (span.map inner) qs = some as ∧ CalmSteps breaks as := by
  cases span with
  | some c =>
    obtain ⟨h1, h2⟩ := hs c rfl
    exact laidOut_here l breaks (some _) (by rintro f ⟨⟩; exact h2) _ qs hq _ h1
  | none =>
    cases qs with
    | nil => exact ⟨[], rfl, fun _ a ha => by cases ha⟩
    | cons q qs =>
      obtain ⟨cur, ev⟩ := q
      obtain ⟨⟨h1, h2⟩, h3⟩ := hq (cur, ev) (by simp)
      obtain ⟨as, ha, hc⟩ := laidOut_here l breaks none (by rintro f ⟨⟩) cur.start.column qs
        (fun x hx => hq x (List.mem_cons_of_mem _ hx)) cur.stop h2
      refine ⟨ev ++ as, ?_, h3.append hc⟩
      show (laidOut Step.ws none cur.start.column [] cur.stop qs).map _ = _
      rw [ha]; rfl

theorem calm_joinWith {as ss : List (Step ι Env)} (ha : ∀ a ∈ as, ∀ ρ, Calm (a ρ).2)
    (hs : ∀ a ∈ ss, ∀ ρ, Calm (a ρ).2) (l : List Env) : Calm (joinWith as ss l) := by
  induction l with
  | nil => exact calm_nil
  | cons x l ih =>
    cases l with
    | nil => exact calm_perform ha x
    | cons y l =>
      exact (calm_perform (fun a h => (List.mem_append.1 h).elim (ha a) (hs a)) x).append ih

theorem calm_chosen (H : Host ι E Env) (e : E) (as : List (E × Option E × List (Step ι Env)))
    (h : ∀ a ∈ as, ∀ s ∈ a.2.2, ∀ ρ, Calm (s ρ).2) (ρ : Env) : Calm (chosen H ρ e as) := by
  induction as with
  | nil => exact calm_nil
  | cons a as ih =>
    obtain ⟨pat, guard, b⟩ := a
    unfold chosen
    split
    · exact calm_perform (h (pat, guard, b) (by simp)) _
    · exact ih (fun x hx => h x (List.mem_cons_of_mem _ hx))

theorem one_here {l : Nat} {breaks : Bool} {cur : Cur} {as : List (Step ι Env)} (h : Here l cur) (ha : CalmSteps breaks as) :
    PiecesHere l breaks [(cur, as)] := by
  intro q hq
  cases List.mem_singleton.1 hq
  exact ⟨h, ha⟩

theorem between_here {l : Nat} {x y : Pos} (hx : x.line = l) (hy : y.line = l) :
    between x y = some (List.replicate (y.column - x.column) ' ') := by
  unfold between
  rw [if_pos (by rw [hx, hy])]

section Here

variable (H : Host ι E Env) (l : Nat) (breaks : Bool)
  (hv : breaks = false → ∀ ρ e, ∀ c ∈ H.value ρ e, ¬ BreakCall c)
  (hs : breaks = false → ∀ ρ e, ∀ c ∈ H.scope ρ e, ¬ BreakCall c)

include hv hs

mutual

theorem steps_here : (ns : List (Node E)) → OneLine l breaks ns →
    ∃ qs, stepsOf H ns = some qs ∧ PiecesHere l breaks qs
  | [], _ => ⟨[], rfl, fun _ h => by cases h⟩
  | n :: ns, h => by
    obtain ⟨a, ha, ca⟩ := step_here n h.1
    obtain ⟨b, hb, cb⟩ := steps_here ns h.2
    refine ⟨a ++ b, ?_, fun q hq => (List.mem_append.1 hq).elim (ca q) (cb q)⟩
    show (stepOf H n).bind (fun a => (stepsOf H ns).bind fun b => some (a ++ b)) = _
    rw [ha, hb]; rfl

theorem step_here : (n : Node E) → NodeHere l breaks n →
    ∃ qs, stepOf H n = some qs ∧ PiecesHere l breaks qs
  | .tree cur text, h => ⟨_, rfl, one_here h (calmSteps_text _ _)⟩
  | .escape cur, h => ⟨_, rfl, one_here h (calmSteps_text _ _)⟩
  | .str cur paren ps, h => by
    obtain ⟨as, ha, ca⟩ := parts_here ps (inner paren).1 (inner paren).2 h.2.1.1 h.2.1.2 h.2.2
    refine ⟨_, by show (strActs H (inner paren).1 (inner paren).2 ps).bind _ = _; rw [ha]; rfl,
      one_here h.1 ?_⟩
    exact (CalmSteps.append (calmSteps_call _ _ (by rintro (h | h | h | h) <;> cases h)) ca).append
      (calmSteps_call _ _ (by rintro (h | h | h | h) <;> cases h))
  | .control cur k, h => ⟨_, rfl, one_here h.1 (by
      intro hb
      rcases h.2 with h | rfl
      · rw [h] at hb; cases hb
      · exact calmSteps_call false _ (by rintro (h | h | h | h) <;> cases h) rfl)⟩
  | .quoted cur s, h => ⟨_, rfl, one_here h
      ((CalmSteps.append (calmSteps_call _ _ (by rintro (h | h | h | h) <;> cases h)) (calmSteps_text _ _)).append
        (calmSteps_call _ _ (by rintro (h | h | h | h) <;> cases h)))⟩
  | .literal cur s, h => ⟨_, rfl, one_here h (calmSteps_text _ _)⟩
  | .eval cur e, h => ⟨_, rfl, one_here h
      (calmSteps_one (fun hb ρ => (calm_marks _).2 (hv hb ρ e)))⟩
  | .scope cur bound content, h => ⟨_, rfl, one_here h (by
      cases bound with
      | false => intro _ a ha; cases ha
      | true => exact calmSteps_one (fun hb ρ => (calm_marks _).2 (hs hb ρ content)))⟩
  | .loop cur pat iter body, h => by
    obtain ⟨qs, hq, cq⟩ := steps_here body h.2
    obtain ⟨as, ha, ca⟩ := block_here l breaks none (by rintro c ⟨⟩) qs cq
    refine ⟨_, by show ((stepsOf H body).bind fun x => (block Step.ws none x).bind _) = _
                  rw [hq, Option.bind_some, show block Step.ws none qs = _ from ha]; rfl, one_here h.1 ?_⟩
    refine calmSteps_one (fun hb ρ c hc => ?_)
    obtain ⟨x, -, hx⟩ := List.mem_flatMap.1 hc
    exact calm_perform (ca hb) x c hx
  | .joined cur pat iter paren sep body, h => by
    obtain ⟨ps, hp, cp⟩ := steps_here sep h.2.2.1
    obtain ⟨ss, hss, cs⟩ := block_here l breaks (some paren) (by rintro c ⟨⟩; exact h.2.1) ps cp
    obtain ⟨qs, hq, cq⟩ := steps_here body h.2.2.2
    obtain ⟨as, ha, ca⟩ := block_here l breaks none (by rintro c ⟨⟩) qs cq
    refine ⟨_, by show ((stepsOf H sep).bind fun x => (block Step.ws (some (inner paren)) x).bind fun ss =>
                    (stepsOf H body).bind fun x => (block Step.ws none x).bind _) = _
                  rw [hp, Option.bind_some, show block Step.ws (some (inner paren)) ps = _ from hss, Option.bind_some,
                    hq, Option.bind_some, show block Step.ws none qs = _ from ha]; rfl, one_here h.1 ?_⟩
    exact calmSteps_one (fun hb ρ => calm_joinWith (ca hb) (cs hb) _)
  | .ifThen cur c t, h => by
    obtain ⟨qs, hq, cq⟩ := steps_here t h.2
    obtain ⟨as, ha, ca⟩ := block_here l breaks none (by rintro c ⟨⟩) qs cq
    refine ⟨_, by show ((stepsOf H t).bind fun x => (block Step.ws none x).bind _) = _
                  rw [hq, Option.bind_some, show block Step.ws none qs = _ from ha]; rfl, one_here h.1 ?_⟩
    refine calmSteps_one (fun hb ρ => ?_)
    show Calm ((H.test ρ c).elim [] (fun ρ' => perform ρ' as))
    cases H.test ρ c with
    | some ρ' => exact calm_perform (ca hb) ρ'
    | none => exact calm_nil
  | .ifElse cur c t e, h => by
    obtain ⟨qs, hq, cq⟩ := steps_here t h.2.1
    obtain ⟨as, ha, ca⟩ := block_here l breaks none (by rintro c ⟨⟩) qs cq
    obtain ⟨ps, hp, cp⟩ := steps_here e h.2.2
    obtain ⟨bs, hb, cb⟩ := block_here l breaks none (by rintro c ⟨⟩) ps cp
    refine ⟨_, by show ((stepsOf H t).bind fun x => (block Step.ws none x).bind fun as =>
                    (stepsOf H e).bind fun x => (block Step.ws none x).bind _) = _
                  rw [hq, Option.bind_some, show block Step.ws none qs = _ from ha, Option.bind_some, hp,
                    Option.bind_some, show block Step.ws none ps = _ from hb]; rfl, one_here h.1 ?_⟩
    refine calmSteps_one (fun hb ρ => ?_)
    show Calm ((H.test ρ c).elim (perform ρ bs) (fun ρ' => perform ρ' as))
    cases H.test ρ c with
    | some ρ' => exact calm_perform (ca hb) ρ'
    | none => exact calm_perform (cb hb) ρ
  | .select cur e arms, h => by
    obtain ⟨as, ha, ca⟩ := arms_here arms h.2
    refine ⟨_, by show (armActs H arms).bind _ = _; rw [ha]; rfl, one_here h.1 ?_⟩
    exact calmSteps_one (fun hb ρ => calm_chosen H e as (ca hb) ρ)
  | .bind cur pat e, h => ⟨_, rfl, one_here h (calmSteps_one (fun _ _ => calm_nil))⟩
  | .group cur d content, h => by
    obtain ⟨qs, hq, cq⟩ := steps_here content h.2
    refine ⟨_, by show (stepsOf H content).bind _ = _; rw [hq]; rfl, ?_⟩
    intro q hm
    rcases List.mem_append.1 hm with hm | hm
    · rcases List.mem_cons.1 hm with rfl | hm
      · exact ⟨⟨h.1.1, h.1.1⟩, calmSteps_text _ _⟩
      · exact cq q hm
    · cases List.mem_singleton.1 hm
      exact ⟨⟨h.1.2, h.1.2⟩, calmSteps_text _ _⟩

theorem arms_here : (arms : List (Arm E)) → ArmsHere l breaks arms →
    ∃ as, armActs H arms = some as ∧ (breaks = false → ∀ a ∈ as, ∀ s ∈ a.2.2, ∀ ρ, Calm (s ρ).2)
  | [], _ => ⟨[], rfl, fun _ _ h => by cases h⟩
  | .mk pat guard paren body :: arms, h => by
    obtain ⟨qs, hq, cq⟩ := steps_here body h.2.1
    obtain ⟨as, ha, ca⟩ := block_here l breaks paren h.1 qs cq
    obtain ⟨bs, hb, cb⟩ := arms_here arms h.2.2
    refine ⟨(pat, guard, as) :: bs, ?_, ?_⟩
    · show ((stepsOf H body).bind fun x => (block Step.ws (paren.map inner) x).bind fun a =>
        (armActs H arms).bind fun b => some ((pat, guard, a) :: b)) = _
      rw [hq, Option.bind_some, ha, Option.bind_some, hb]; rfl
    · intro hf a hm
      rcases List.mem_cons.1 hm with rfl | hm
      · exact ca hf
      · exact cb hf a hm

theorem parts_here : (ps : List (Part E)) → (stop close : Pos) → stop.line = l → close.line = l →
    PartsHere l breaks ps → ∃ as, strActs H stop close ps = some as ∧ CalmSteps breaks as
  | [], stop, close, h1, h2, _ => by
    refine ⟨_, by show (between stop close).map _ = _; rw [between_here h1 h2]; rfl, calmSteps_text _ _⟩
  | p :: ps, stop, close, h1, h2, h => by
    obtain ⟨as, ha, ca⟩ := part_here p h.2.1
    obtain ⟨bs, hb, cb⟩ := parts_here ps (placeOf p).stop close h.1.2 h2 h.2.2
    refine ⟨_, by show ((between stop (placeOf p).start).bind fun gap => (partActs H p).bind fun a =>
                    (strActs H (placeOf p).stop close ps).bind fun b => some (Step.text gap ++ a ++ b)) = _
                  rw [between_here h1 h.1.1, Option.bind_some, ha, Option.bind_some, hb]; rfl, ?_⟩
    exact ((calmSteps_text _ _).append ca).append cb

theorem part_here : (p : Part E) → PartHere l breaks p → ∃ as, partActs H p = some as ∧ CalmSteps breaks as
  | .dollar _, _ => ⟨_, rfl, calmSteps_text _ _⟩
  | .constant _ _, _ => ⟨_, rfl, calmSteps_text _ _⟩
  | .raw _ e, _ => ⟨_, rfl, calmSteps_one (fun hb ρ => (calm_marks _).2 (hv hb ρ e))⟩
  | .ident _ name, _ => ⟨_, rfl,
      (CalmSteps.append (calmSteps_call _ _ (by rintro (h | h | h | h) <;> cases h)) (calmSteps_text _ _)).append
        (calmSteps_call _ _ (by rintro (h | h | h | h) <;> cases h))⟩
  | .stream _ span content, h => by
    obtain ⟨qs, hq, cq⟩ := steps_here content h.2
    obtain ⟨as, ha, ca⟩ := block_here l breaks (some span) (by rintro c ⟨⟩; exact h.1) qs cq
    refine ⟨_, by show ((stepsOf H content).bind fun x => (block Step.ws (some (inner span)) x).bind _) = _
                  rw [hq, Option.bind_some, show block Step.ws (some (inner span)) qs = _ from ha]; rfl, ?_⟩
    exact (CalmSteps.append (calmSteps_call _ _ (by rintro (h | h | h | h) <;> cases h)) ca).append
      (calmSteps_call _ _ (by rintro (h | h | h | h) <;> cases h))
  | .tt _ _, _ => ⟨_, rfl, calmSteps_text _ _⟩

end

end Here

mutual

theorem oneLine_up (l : Nat) : (ns : List (Node E)) → OneLine l false ns → OneLine l true ns
  | [], _ => trivial
  | n :: ns, h => ⟨nodeHere_up l n h.1, oneLine_up l ns h.2⟩

theorem nodeHere_up (l : Nat) : (n : Node E) → NodeHere l false n → NodeHere l true n
  | .tree _ _, h => h
  | .escape _, h => h
  | .str _ _ ps, h => ⟨h.1, h.2.1, partsHere_up l ps h.2.2⟩
  | .control _ _, h => ⟨h.1, .inl rfl⟩
  | .quoted _ _, h => h
  | .literal _ _, h => h
  | .eval _ _, h => h
  | .scope _ _ _, h => h
  | .loop _ _ _ body, h => ⟨h.1, oneLine_up l body h.2⟩
  | .joined _ _ _ _ sep body, h => ⟨h.1, h.2.1, oneLine_up l sep h.2.2.1, oneLine_up l body h.2.2.2⟩
  | .ifThen _ _ t, h => ⟨h.1, oneLine_up l t h.2⟩
  | .ifElse _ _ t e, h => ⟨h.1, oneLine_up l t h.2.1, oneLine_up l e h.2.2⟩
  | .select _ _ arms, h => ⟨h.1, armsHere_up l arms h.2⟩
  | .bind _ _ _, h => h
  | .group _ _ content, h => ⟨h.1, oneLine_up l content h.2⟩

theorem armsHere_up (l : Nat) : (as : List (Arm E)) → ArmsHere l false as → ArmsHere l true as
  | [], _ => trivial
  | .mk _ _ _ body :: as, h => ⟨h.1, oneLine_up l body h.2.1, armsHere_up l as h.2.2⟩

theorem partsHere_up (l : Nat) : (ps : List (Part E)) → PartsHere l false ps → PartsHere l true ps
  | [], _ => trivial
  | p :: ps, h => ⟨h.1, partHere_up l p h.2.1, partsHere_up l ps h.2.2⟩

theorem partHere_up (l : Nat) : (p : Part E) → PartHere l false p → PartHere l true p
  | .stream _ _ content, h => ⟨h.1, oneLine_up l content h.2⟩
  | .dollar _, _ => trivial
  | .constant _ _, _ => trivial
  | .raw _ _, _ => trivial
  | .ident _ _, _ => trivial
  | .tt _ _, _ => trivial

end

/-! ## Down the page -/

/-- Not the panic, and the result is as wanted. -/
def Fine {α : Type} (x : Except Err α) (P : α → Prop) : Prop := x ≠ .error .panic ∧ ∀ a, x = .ok a → P a

theorem fine_ok {α : Type} {a : α} {P : α → Prop} (h : P a) : Fine (.ok a) P :=
  ⟨(by intro h; cases h), by rintro b ⟨⟩; exact h⟩

theorem fine_bind {α β : Type} {x : Except Err α} {f : α → Except Err β} {P : α → Prop} {Q : β → Prop}
    (hx : Fine x P) (hf : ∀ a, P a → Fine (f a) Q) : Fine (x.bind f) Q := by
  cases x with
  | error e => exact ⟨fun h => hx.1 (by cases h; rfl), by rintro b ⟨⟩⟩
  | ok a => exact hf a (hx.2 a rfl)

/-- The encoder is at a line or above. -/
def At (l : Nat) (to : Option Pos) (e : Enc ι E) : Prop :=
  (∀ s ∈ e.spanStart, s.line ≤ l) ∧ (e.spanStart = none → ∀ c ∈ e.last, c.stop.line ≤ l) ∧ e.spanEnd = to

theorem At.le {l m : Nat} {to : Option Pos} {e : Enc ι E} (h : At l to e) (hm : l ≤ m) : At m to e :=
  ⟨fun s hs => Nat.le_trans (h.1 s hs) hm, fun hn c hc => Nat.le_trans (h.2.1 hn c hc) hm, h.2.2⟩

theorem fine_unindents (to : Nat) (line : Bool) (is : List Nat) :
    Fine (Enc.unindents (ι := ι) (E := E) to line is) (fun _ => True) := by
  induction is with
  | nil => exact fine_ok trivial
  | cons c is ih =>
    unfold Enc.unindents
    split
    · exact fine_bind ih (fun _ _ => fine_ok trivial)
    · split
      · exact fine_ok trivial
      · exact ⟨(by intro h; cases h), by rintro b ⟨⟩⟩

theorem flush_kept (e : Enc ι E) : e.flush.spanStart = e.spanStart ∧ e.flush.spanEnd = e.spanEnd := by
  unfold Enc.flush
  split
  · exact ⟨rfl, rfl⟩
  · exact ⟨rfl, rfl⟩

theorem fine_tokenize (e : Enc ι E) (start to : Pos) (h : start.line ≤ to.line) :
    Fine (e.tokenizeWhitespace start to) (fun e' => e'.spanStart = e.spanStart ∧ e'.spanEnd = e.spanEnd) := by
  unfold Enc.tokenizeWhitespace
  have hf := flush_kept e
  split
  · exact fine_ok ⟨rfl, rfl⟩
  · split
    · split
      · exact fine_ok hf
      · exact fine_ok ⟨rfl, rfl⟩
    · dsimp only
      rw [if_neg (by omega)]
      split
      · exact fine_ok hf
      · split
        · exact fine_ok hf
        · split
          · refine fine_bind (fine_unindents _ _ _) (fun p _ => fine_ok hf)
          · split
            · exact fine_ok hf
            · exact fine_ok hf

theorem origin_at {l : Nat} {to : Option Pos} {e : Enc ι E} (h : At l to e) : e.origin.1.spanStart = none ∧
    e.origin.1.spanEnd = to ∧ ∀ s ∈ e.origin.2, s.line ≤ l := by
  unfold Enc.origin
  cases hs : e.spanStart with
  | some s =>
    refine ⟨rfl, h.2.2, ?_⟩
    rintro _ ⟨⟩; exact h.1 s hs
  | none =>
    cases hl : e.last with
    | none => exact ⟨hs, h.2.2, fun _ h => by cases h⟩
    | some c =>
      refine ⟨?_, ?_, ?_⟩
      · show (if _ then _ else _ : Enc ι E).spanStart = _
        split
        · rfl
        · exact hs
      · show (if _ then _ else _ : Enc ι E).spanEnd = _
        split <;> exact h.2.2
      · rintro _ ⟨⟩; exact h.2.1 hs c hl

theorem encodeAst_kept (e : Enc ι E) (a : Ast ι E) : (e.encodeAst a).spanStart = e.spanStart ∧
    (e.encodeAst a).spanEnd = e.spanEnd ∧ (e.encodeAst a).last = e.last := by
  have hf : ∀ e : Enc ι E, e.flush.spanStart = e.spanStart ∧ e.flush.spanEnd = e.spanEnd ∧ e.flush.last = e.last := by
    intro e
    unfold Enc.flush
    split <;> exact ⟨rfl, rfl, rfl⟩
  unfold Enc.encodeAst
  split
  all_goals first
    | exact ⟨rfl, rfl, rfl⟩
    | exact hf e
    | exact hf { e with requirements := _ }
    | (rename_i bound _; cases bound
       · exact ⟨rfl, rfl, rfl⟩
       · exact hf e)

theorem fine_encode {l : Nat} {to : Option Pos} {e : Enc ι E} (h : At l to e) (cur : Cur) (a : Ast ι E)
    (hl : l ≤ cur.start.line) : Fine (e.encode cur a) (At cur.stop.line to) := by
  unfold Enc.encode Enc.step
  refine fine_bind (P := fun e' => At cur.stop.line to e') ?_ ?_
  · have ho := origin_at h
    generalize e.origin = x at ho
    have key : ∀ e' : Enc ι E, e'.spanStart = none → e'.spanEnd = to →
        At cur.stop.line to { e' with last := some cur } := by
      intro e' h1 h2
      refine ⟨?_, ?_, h2⟩
      · intro s hs; rw [show e'.spanStart = some s from hs] at h1; cases h1
      · rintro - c ⟨⟩; exact Nat.le_refl _
    obtain ⟨e', _ | s⟩ := x
    · exact fine_ok (key e' ho.1 ho.2.1)
    · refine fine_bind (fine_tokenize e' s cur.start (Nat.le_trans (ho.2.2 s rfl) hl)) (fun e2 he => fine_ok ?_)
      exact key e2 (by rw [he.1]; exact ho.1) (by rw [he.2]; exact ho.2.1)
  · intro e' he
    obtain ⟨h1, h2, h3⟩ := encodeAst_kept e' a
    refine fine_ok ⟨?_, ?_, ?_⟩
    · rw [h1]; exact he.1
    · rw [h1, h3]; exact he.2.1
    · rw [h2]; exact he.2.2

theorem fine_into {l : Nat} {to : Option Pos} {e : Enc ι E} (h : At l to e) (ht : ∀ f ∈ to, l ≤ f.line) :
    Fine e.intoOutput (fun _ => True) := by
  unfold Enc.intoOutput
  cases hs : e.spanEnd with
  | none => exact fine_ok trivial
  | some f =>
    have h' : At l none { e with spanEnd := none } := ⟨h.1, h.2.1, rfl⟩
    have ho := origin_at h'
    dsimp only
    generalize ({ e with spanEnd := none } : Enc ι E).origin = x at ho
    obtain ⟨e', _ | s⟩ := x
    · exact fine_ok trivial
    · exact fine_bind (fine_tokenize e' s f (Nat.le_trans (ho.2.2 s rfl) (ht f (by rw [← h.2.2, hs]; rfl))))
        (fun _ _ => fine_ok trivial)

theorem At.req {l : Nat} {to : Option Pos} {e : Enc ι E} (h : At l to e) (r : Bool) :
    At l to { e with requirements := r } := h

theorem at_start (l : Nat) : At l none (startEnc (ι := ι) (E := E) none) :=
  ⟨fun _ h => (by cases h), fun _ _ h => (by cases h), rfl⟩

theorem at_span (c : Cur) : At c.start.line (some (adjustEnd c.stop)) (startEnc (ι := ι) (E := E) (some c)) :=
  ⟨by rintro s ⟨⟩; exact Nat.le_refl _, (by intro h; cases h), rfl⟩

theorem fine_strFlush (s : StrEnc ι E) (start : Pos) (to : Option Pos) :
    Fine (s.flushWhitespace start to) (fun _ => True) := by
  unfold StrEnc.flushWhitespace
  split
  · exact fine_ok trivial
  · split
    · exact ⟨(by intro h; cases h), by rintro b ⟨⟩⟩
    · exact fine_ok trivial

theorem fine_flush (s : StrEnc ι E) (start : Pos) (to : Option Pos) : Fine (s.flush start to) (fun _ => True) := by
  unfold StrEnc.flush
  refine fine_bind (fine_strFlush s start to) (fun e _ => ?_)
  show Fine (if _ then _ else _) _
  split
  · exact fine_ok trivial
  · exact fine_ok trivial

theorem fine_own (ns : List (Node E))
    (hn : ∀ (to : Option Pos) (l m : Nat) (e : Enc ι E), Down l ns m → At l to e → Fine (nodes e ns) (At m to))
    (h : ∃ k, Down 0 ns k) {β : Type} {Q : β → Prop}
    (f : Bool × List (Stmt ι E) → Except Err β) (hf : ∀ p, Fine (f p) Q) :
    Fine ((nodes (ι := ι) (startEnc none) ns).bind fun e => e.intoOutput.bind f) Q := by
  obtain ⟨k, h⟩ := h
  exact fine_bind (hn none 0 k _ h (at_start 0))
    (fun e he => fine_bind (fine_into he (fun _ h => by cases h)) (fun p _ => hf p))

theorem fine_paren (c : Cur) (ns : List (Node E))
    (hn : ∀ (to : Option Pos) (l m : Nat) (e : Enc ι E), Down l ns m → At l to e → Fine (nodes e ns) (At m to))
    (h : Down c.start.line ns c.stop.line) {β : Type} {Q : β → Prop}
    (f : Bool × List (Stmt ι E) → Except Err β) (hf : ∀ p, Fine (f p) Q) :
    Fine ((nodes (ι := ι) (startEnc (some c)) ns).bind fun e => e.intoOutput.bind f) Q :=
  fine_bind (hn _ _ _ _ h (at_span c))
    (fun e he => fine_bind (fine_into he (by rintro f ⟨⟩; exact Nat.le_refl _)) (fun p _ => hf p))

mutual

theorem fine_nodes : (ns : List (Node E)) → (to : Option Pos) → (l m : Nat) → (e : Enc ι E) → Down l ns m → At l to e →
    Fine (nodes e ns) (At m to)
  | [], _, _, _, _, h, he => fine_ok (he.le h)
  | n :: ns, to, l, m, e, h, he => by
    obtain ⟨k, hn, h⟩ := h
    exact fine_bind (fine_node n to l k e hn he) (fun e' he' => fine_nodes ns to k m e' h he')

theorem fine_node : (n : Node E) → (to : Option Pos) → (l m : Nat) → (e : Enc ι E) → NodeDown l n m → At l to e →
    Fine (node e n) (At m to)
  | .tree cur _, to, l, m, e, h, he => h.2 ▸ fine_encode he cur _ h.1
  | .escape cur, to, l, m, e, h, he => h.2 ▸ fine_encode he cur _ h.1
  | .str cur paren ps, to, l, m, e, h, he => by
    refine fine_bind (fine_parts ps _ _ h.2.2) (fun p _ => ?_)
    refine fine_bind (fine_flush _ _ _) (fun s _ => ?_)
    exact h.2.1 ▸ fine_encode (he.req _) cur _ h.1
  | .control cur _, to, l, m, e, h, he => h.2 ▸ fine_encode he cur _ h.1
  | .quoted cur _, to, l, m, e, h, he => h.2 ▸ fine_encode he cur _ h.1
  | .literal cur _, to, l, m, e, h, he => h.2 ▸ fine_encode he cur _ h.1
  | .eval cur _, to, l, m, e, h, he => h.2 ▸ fine_encode he cur _ h.1
  | .scope cur _ _, to, l, m, e, h, he => h.2 ▸ fine_encode he cur _ h.1
  | .loop cur _ _ body, to, l, m, e, h, he => by
    exact fine_own body (fine_nodes body) h.2.2 _ (fun p => h.2.1 ▸ fine_encode (he.req _) cur _ h.1)
  | .joined cur _ _ paren sep body, to, l, m, e, h, he => by
    exact fine_paren paren sep (fine_nodes sep) h.2.2.1 _ (fun p => fine_own body (fine_nodes body) h.2.2.2 _
      (fun p => h.2.1 ▸ fine_encode (he.req _) cur _ h.1))
  | .ifThen cur _ t, to, l, m, e, h, he => by
    exact fine_own t (fine_nodes t) h.2.2 _ (fun p => h.2.1 ▸ fine_encode (he.req _) cur _ h.1)
  | .ifElse cur _ t f, to, l, m, e, h, he => by
    exact fine_own t (fine_nodes t) h.2.2.1 _ (fun p => fine_own f (fine_nodes f) h.2.2.2 _
      (fun p => h.2.1 ▸ fine_encode (he.req _) cur _ h.1))
  | .select cur _ arms, to, l, m, e, h, he => by
    refine fine_bind (fine_arms arms h.2.2) (fun p _ => ?_)
    exact h.2.1 ▸ fine_encode (he.req _) cur _ h.1
  | .bind cur _ _, to, l, m, e, h, he => h.2 ▸ fine_encode he cur _ h.1
  | .group cur d content, to, l, m, e, h, he => by
    refine fine_bind (fine_encode he cur.firstCharacter (.delimiterOpen d) h.1) (fun e1 h1 => ?_)
    refine fine_bind (fine_nodes content to _ _ e1 h.2.2 h1) (fun e2 h2 => ?_)
    exact h.2.1 ▸ fine_encode h2 cur.lastCharacter (.delimiterClose d) (Nat.le_refl _)

theorem fine_arms : (as : List (Arm E)) → ArmsDown as → Fine (arms (ι := ι) as) (fun _ => True)
  | [], _ => fine_ok trivial
  | .mk pat guard none body :: as, h =>
    fine_own body (fine_nodes body) h.1 _ (fun _ => fine_bind (fine_arms as h.2) (fun _ _ => fine_ok trivial))
  | .mk pat guard (some c) body :: as, h =>
    fine_paren c body (fine_nodes body) h.1 _ (fun _ => fine_bind (fine_arms as h.2) (fun _ _ => fine_ok trivial))

theorem fine_parts : (ps : List (Part E)) → (s : StrEnc ι E) → (req : Bool) → PartsDown ps →
    Fine (parts s req ps) (fun _ => True)
  | [], _, _, _ => fine_ok trivial
  | .dollar cur :: ps, s, req, h =>
    fine_bind (P := fun _ => True) (fine_bind (fine_strFlush s _ _) (fun _ _ => fine_ok trivial)) (fun e _ => fine_parts ps e req h.2)
  | .constant cur _ :: ps, s, req, h =>
    fine_bind (P := fun _ => True) (fine_bind (fine_strFlush s _ _) (fun _ _ => fine_ok trivial)) (fun e _ => fine_parts ps e req h.2)
  | .raw cur _ :: ps, s, req, h =>
    fine_bind (P := fun _ => True) (fine_bind (fine_flush s _ _) (fun _ _ => fine_ok trivial)) (fun e _ => fine_parts ps e req h.2)
  | .ident cur _ :: ps, s, req, h =>
    fine_bind (P := fun _ => True) (fine_bind (fine_flush s _ _) (fun _ _ => fine_ok trivial)) (fun e _ => fine_parts ps e req h.2)
  | .stream cur span content :: ps, s, req, h =>
    fine_paren span content (fine_nodes content) h.1 _ (fun _ =>
      fine_bind (P := fun _ => True) (fine_bind (fine_flush s _ _) (fun _ _ => fine_ok trivial)) (fun e _ => fine_parts ps e _ h.2))
  | .tt cur _ :: ps, s, req, h =>
    fine_bind (P := fun _ => True) (fine_bind (fine_strFlush s _ _) (fun _ _ => fine_ok trivial)) (fun e _ => fine_parts ps e req h.2)

end

end Genco.Macro
