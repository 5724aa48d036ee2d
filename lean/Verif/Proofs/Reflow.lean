import Verif.Spec.Reflow
import Verif.Proofs.Split
import Verif.Props.Tokens
import Verif.Props.Layout
import Verif.Spec.Template

/-!
# The same macro, laid out in another way
-/

set_option autoImplicit false

namespace Genco.Spec.Reflow

open Genco.Macro MacroFile

variable {ι E E' Env : Type}

/-! ## Nodes -/

section Told

variable (g : E → E') (K : Host ι E' Env)

theorem placeOf_bones (gap : Nat) (p : Part E) : placeOf (bonesPart g gap p) = behind gap := by
  cases p <;> rfl

theorem isEval_bones (gap : Nat) (p : Part E) : isEval (bonesPart g gap p) = isEval p := by
  cases p <;> rfl

theorem any_bones (stop : Pos) (ps : List (Part E)) : (bonesParts g stop ps).any isEval = ps.any isEval := by
  induction ps generalizing stop with
  | nil => simp [bonesParts]
  | cons p ps ih => simp [bonesParts, isEval_bones, ih]

mutual

theorem told_bones : ∀ ns : List (Node E), told (pull g K) ns = told K (bones g ns)
  | [] => by simp [bones, told]
  | n :: ns => by rw [bones, told, told, told_bones ns, told_node n]

theorem told_node : ∀ n : Node E, toldNode (pull g K) n = toldNode K (bonesNode g n)
  | .tree _ text => by simp [bonesNode, toldNode]
  | .escape _ => by simp [bonesNode, toldNode]
  | .str _ paren ps => by
    have h := told_parts (inner paren).1 (inner paren).2 ⟨0, 1⟩ rfl ps
    simp only [bonesNode, toldNode, any_bones, h]
    rfl
  | .control _ k => by simp [bonesNode, toldNode]
  | .quoted _ s => by simp [bonesNode, toldNode]
  | .literal _ s => by simp [bonesNode, toldNode]
  | .eval _ e => by simp only [bonesNode, toldNode]; rfl
  | .scope _ bound content => by simp only [bonesNode, toldNode]; rfl
  | .loop _ pat iter body => by simp only [bonesNode, toldNode, told_bones body]; rfl
  | .joined _ pat iter _ sep body => by simp only [bonesNode, toldNode, told_bones body, told_bones sep]; rfl
  | .ifThen _ c t => by simp only [bonesNode, toldNode, told_bones t]; rfl
  | .ifElse _ c t e => by simp only [bonesNode, toldNode, told_bones t, told_bones e]; rfl
  | .select _ e arms => by simp only [bonesNode, toldNode]; funext ρ; rw [told_arms e arms]
  | .bind _ pat e => by simp only [bonesNode, toldNode]; rfl
  | .group _ d content => by cases d <;> simp only [bonesNode, toldNode, told_bones content]

theorem told_arms (e : E) : ∀ (as : List (Arm E)) (ρ : Env),
    toldArms (pull g K) e as ρ = toldArms K (g e) (bonesArms g as) ρ
  | [], ρ => by simp [bonesArms, toldArms]
  | .mk pat guard p body :: as, ρ => by
    simp only [bonesArms, toldArms, told_bones body, told_arms e as ρ]
    rfl

theorem told_parts (stop close s : Pos) (hs : s.column = 1) : ∀ ps : List (Part E),
    toldParts (pull g K) stop close ps = toldParts K s ⟨0, lastGap stop close ps + 1⟩ (bonesParts g stop ps)
  | [] => by simp [bonesParts, toldParts, lastGap, hs]
  | p :: ps => by
    have h := told_parts (placeOf p).stop close ⟨0, 1⟩ rfl ps
    simp only [bonesParts, toldParts, lastGap, placeOf_bones, told_part ((placeOf p).start.column - stop.column) p, h, hs]
    simp [behind]

theorem told_part (gap : Nat) : ∀ p : Part E, toldPart (pull g K) p = toldPart K (bonesPart g gap p)
  | .dollar _ => by simp [bonesPart, toldPart]
  | .constant _ s => by simp [bonesPart, toldPart]
  | .raw _ e => by simp only [bonesPart, toldPart]; rfl
  | .ident _ name => by simp [bonesPart, toldPart]
  | .stream _ _ content => by simp only [bonesPart, toldPart, told_bones content]
  | .tt _ text => by simp [bonesPart, toldPart]

end

end Told

/-! ## What is said, and what is written -/

def markItems : Mark ι → List (Item ι)
  | .char c => [.literal (.static [c])]
  | .call c => callItems c

theorem spelt_append (a b : List (Item ι)) : spelt (a ++ b) = spelt a ++ spelt b := List.flatMap_append ..

theorem spelt_content (l : List (Item ι)) : spelt ((l.filter fun i => !isWs i).map erase) = spelt l := by
  induction l with
  | nil => rfl
  | cons i l ih =>
    rw [List.filter_cons]
    show _ = spelt1 i ++ spelt l
    cases i <;> simp [isWs, erase, spelt1, ← ih] <;> rfl

theorem spelt_history (cs : List (Call ι)) : spelt (history cs).items = spelt (cs.flatMap callItems) := by
  rw [← spelt_content (history cs).items, Props.C05_content, content, spelt_content]

theorem spelt_marks (cs : List (Call ι)) : spelt (cs.flatMap callItems) = spelt ((bare (marks cs)).flatMap markItems) := by
  induction cs with
  | nil => rfl
  | cons c cs ih =>
    have e : ∀ c : Call ι, spelt (callItems c) = spelt ((bare (markOf c)).flatMap markItems) := by
      intro c
      have hl : ∀ s : Str, (bare (s.map (Mark.char (ι := ι)))).flatMap markItems = s.map fun c => .literal (.static [c]) := by
        intro s
        induction s with
        | nil => rfl
        | cons a s ih => exact congrArg (_ :: ·) ih
      have h1 : ∀ s : Str, spelt (s.map fun c => (.literal (.static [c]) : Item ι)) = s.map fun c => .literal (.static [c]) := by
        intro s
        induction s with
        | nil => rfl
        | cons a s ih => exact congrArg (_ :: ·) ih
      cases c with
      | append i =>
        cases i with
        | literal s =>
          cases s with
          | static s =>
            rw [show markOf (.append (.literal (.static s)) : Call ι) = s.map .char from rfl, hl, h1]
            simp [spelt, callItems, spelt1, ItemStr.text]
          | box s => rfl
        | _ => rfl
      | stream it =>
        show spelt it = spelt (it ++ [])
        rw [List.append_nil]
      | _ => rfl
    show spelt (callItems c ++ cs.flatMap callItems) = spelt ((bare (markOf c ++ marks cs)).flatMap markItems)
    rw [bare, List.filter_append, List.flatMap_append, spelt_append, spelt_append, ih, e]
    rfl

/-- Streams with the same content. -/
theorem spelt_of_bare {cs ds : List (Call ι)} (h : bare (marks cs) = bare (marks ds)) :
    spelt (history cs).items = spelt (history ds).items := by
  rw [spelt_history, spelt_history, spelt_marks, spelt_marks, h]

theorem inserted_spelt (l : List (Item ι)) : (spelt l).filterMap langOf = l.filterMap langOf := by
  induction l with
  | nil => rfl
  | cons i l ih =>
    show (spelt1 i ++ spelt l).filterMap langOf = _
    rw [List.filterMap_append, ih]
    cases i with
    | literal s =>
      rw [show (spelt1 (.literal s : Item ι)).filterMap langOf = [] from by
        simp [spelt1, langOf]]
      rfl
    | _ => rfl

theorem inserted_of_bare {cs ds : List (Call ι)} (h : bare (marks cs) = bare (marks ds)) : inserted cs = inserted ds := by
  rw [inserted, inserted, ← inserted_spelt, spelt_marks, h, ← spelt_marks, inserted_spelt]

/-! ## Ink -/

/-- What is written but whitespace, and whether marks match; `none` if a string is opened inside a string. -/
def ink (L : Lang ι) : List Frame → List (Item ι) → Option (Str × Bool)
  | [], _ => some ([], true)
  | _, [] => some ([], true)
  | h :: st, i :: r =>
    match i with
    | .literal s => (ink L (h :: st) r).map fun p =>
      ((if h.inQuote then (L.writeQuoted s.text).flatten else s.text).filter inked ++ p.1, p.2)
    | .lang _ i => (ink L (h :: st) r).map fun p => ((L.langItem i).flatten.filter inked ++ p.1, p.2)
    | .openQuote e =>
      if h.inQuote then none
      else (ink L ({ h with hasEval := e, inQuote := true } :: st) r).map fun p =>
        ((L.openQuote e).flatten.filter inked ++ p.1, p.2)
    | .closeQuote =>
      if h.inQuote then (ink L ({ h with inQuote := false, hasEval := false } :: st) r).map fun p =>
        ((L.closeQuote h.hasEval).flatten.filter inked ++ p.1, p.2)
      else some ([], false)
    | .openEval =>
      if h.inQuote then (ink L (⟨false, false, true⟩ :: h :: st) r).map fun p =>
        (L.startEval.flatten.filter inked ++ p.1, p.2)
      else some ([], false)
    | .closeEval =>
      if h.endOnEval then (ink L st r).map fun p => (L.endEval.flatten.filter inked ++ p.1, p.2)
      else some ([], false)
    | _ => ink L (h :: st) r

theorem sober_ink (L : Lang ι) (l : List (Item ι)) : ∀ st : List Frame, sober (st.map (·.inQuote)) l = true →
    (ink L st l).isSome = true := by
  induction l with
  | nil => intro st _; cases st <;> rfl
  | cons i l ih =>
    intro st h
    cases st with
    | nil => rfl
    | cons f st =>
      cases i with
      | openQuote e =>
        simp only [List.map_cons, sober, Bool.and_eq_true, Bool.not_eq_true'] at h
        simp only [ink, h.1, Bool.false_eq_true, if_false, Option.isSome_map]
        exact ih _ h.2
      | closeQuote =>
        simp only [List.map_cons, sober] at h
        simp only [ink]
        split
        · rw [Option.isSome_map]; exact ih _ h
        · rfl
      | openEval =>
        simp only [List.map_cons, sober] at h
        simp only [ink]
        split
        · rw [Option.isSome_map]; exact ih _ h
        · rfl
      | closeEval =>
        simp only [List.map_cons, sober] at h
        simp only [ink]
        split
        · rw [Option.isSome_map]; exact ih _ h
        · rfl
      | literal s => rw [ink]; rw [Option.isSome_map]; exact ih _ h
      | lang p i => rw [ink]; rw [Option.isSome_map]; exact ih _ h
      | _ => exact ih _ h

theorem ink_spelt (L : Lang ι) (hQ : HomQuote L) (l : List (Item ι)) : ∀ st, ink L st (spelt l) = ink L st l := by
  induction l with
  | nil => intro st; rfl
  | cons i l ih =>
    intro st
    show ink L st (spelt1 i ++ spelt l) = _
    cases st with
    | nil => simp [ink]
    | cons f st =>
      cases i with
      | literal s =>
        rw [ink, ← ih]
        show ink L (f :: st) ((s.text.map fun c => .literal (.static [c])) ++ spelt l) = _
        generalize s.text = t
        induction t with
        | nil =>
          simp [hQ.nil]
        | cons c t iht =>
          rw [List.map_cons, List.cons_append, ink, iht, Option.map_map]
          congr 1
          funext p
          simp only [Function.comp, ItemStr.text, ← List.append_assoc, ← List.filter_append]
          congr 3
          cases f.inQuote
          · rfl
          · simp only [if_true]; rw [show c :: t = [c] ++ t from rfl, hQ]
      | openQuote e => simp only [spelt1, isWs, erase, List.singleton_append, ink, ih, Bool.false_eq_true, if_false]
      | closeQuote => simp only [spelt1, isWs, erase, List.singleton_append, ink, ih, Bool.false_eq_true, if_false]
      | openEval => simp only [spelt1, isWs, erase, List.singleton_append, ink, ih, Bool.false_eq_true, if_false]
      | closeEval => simp only [spelt1, isWs, erase, List.singleton_append, ink, ih, Bool.false_eq_true, if_false]
      | lang p i => simp only [spelt1, isWs, erase, List.singleton_append, ink, ih, Bool.false_eq_true, if_false]
      | register p i => simp only [spelt1, isWs, erase, List.singleton_append, ink, ih, Bool.false_eq_true, if_false]
      | _ => exact ih _

theorem actTexts_append (a b : List Act) : actTexts (a ++ b) = actTexts a ++ actTexts b := by
  induction a with
  | nil => rfl
  | cons x a ih => cases x <;> simp [actTexts, ih]

theorem actTexts_texts (l : List Str) : actTexts (texts l) = l.flatten := by
  induction l with
  | nil => rfl
  | cons s l ih =>
    show s ++ actTexts (texts l) = _
    rw [ih]; rfl

theorem res_ink (L : Lang ι) (cfg : Config) (l : List (Item ι)) : Template.Uniform L l → ∀ (st : List Frame) p, ink L st l = some p →
    (actTexts (res L cfg false st l).1).filter inked = p.1 ∧ (res L cfg false st l).2.isSome = p.2 := by
  induction l with
  | nil =>
    intro _ st p h
    have : p = ([], true) := by cases st <;> exact (Option.some.inj h).symm
    subst this
    rw [res_nil]
    exact ⟨rfl, rfl⟩
  | cons i l ih =>
    intro hU st p h
    have hU' : Template.Uniform L l := hU.imp id (fun h j hj => h j (List.mem_cons_of_mem _ hj))
    have ih := ih hU'
    cases st with
    | nil =>
      have : p = ([], true) := (Option.some.inj h).symm
      subst this
      exact ⟨rfl, rfl⟩
    | cons f st =>
      have key : ∀ (a : List Act) (st' : List Frame) (t : Str), (actTexts a) = t →
          (ink L st' l).map (fun p => (t.filter inked ++ p.1, p.2)) = some p →
          (actTexts (pre a (res L cfg false st' l)).1).filter inked = p.1 ∧
            (pre a (res L cfg false st' l)).2.isSome = p.2 := by
        intro a st' t ht h
        obtain ⟨q, hq, rfl⟩ := Option.map_eq_some_iff.1 h
        obtain ⟨h1, h2⟩ := ih st' q hq
        refine ⟨?_, h2⟩
        show (actTexts (a ++ _)).filter inked = _
        rw [actTexts_append, List.filter_append, h1, ht]
      have skip : ∀ a : List Act, actTexts a = [] → ink L (f :: st) l = some p →
          (actTexts (pre a (res L cfg false (f :: st) l)).1).filter inked = p.1 ∧
            (pre a (res L cfg false (f :: st) l)).2.isSome = p.2 := by
        intro a ha h
        refine key a (f :: st) [] ha ?_
        rw [h]; rfl
      cases i with
      | register p i => rw [res_cons]; exact skip [] rfl h
      | push => rw [res_cons]; exact skip [.push] rfl h
      | line => rw [res_cons]; exact skip [.line] rfl h
      | space => rw [res_cons]; exact skip [.space] rfl h
      | indentation n =>
        rw [res_cons]
        simp only
        split
        · exact skip [] rfl h
        · exact skip [.indent n] rfl h
      | lang p i => rw [res_cons]; exact key _ _ _ (actTexts_texts _) h
      | literal s =>
        rw [res_cons]
        refine key _ _ _ ?_ h
        cases f.inQuote
        · exact List.append_nil _
        · exact actTexts_texts _
      | openQuote e =>
        rw [res_cons]
        simp only [ink] at h ⊢
        cases hq : f.inQuote with
        | true => rw [hq] at h; cases h
        | false =>
          rw [hq] at h
          exact key _ _ _ (actTexts_texts _) h
      | closeQuote =>
        rw [res_cons]
        simp only [ink] at h ⊢
        cases hq : f.inQuote with
        | true => rw [hq] at h; exact key _ _ _ (actTexts_texts _) h
        | false =>
          rw [hq] at h
          cases h
          exact ⟨rfl, rfl⟩
      | openEval =>
        rcases hU with hD | hD
        · simp only [ink] at h
          cases hq : f.inQuote with
          | true =>
            rw [hq] at h
            rw [res_openEval L hD _ _ _ _ _ hq]
            exact key _ _ _ (actTexts_texts _) h
          | false =>
            rw [hq] at h
            cases h
            rw [res_cons]
            simp only [hq]
            exact ⟨rfl, rfl⟩
        · exact absurd (hD .openEval (List.mem_cons_self ..)) (by simp [opensEval])
      | closeEval =>
        rw [res_cons]
        simp only [ink] at h ⊢
        cases hq : f.endOnEval with
        | true => rw [hq] at h; exact key _ _ _ (actTexts_texts _) h
        | false =>
          rw [hq] at h
          cases h
          exact ⟨rfl, rfl⟩

/-- The ink of a stream. -/
theorem toString_ink (L : Lang ι) (cfg : Config) (hn : cfg.newline.filter inked = []) (l : List (Item ι))
    (hU : Template.Uniform L l) (p : Str × Bool) (h : ink L [Frame.default] l = some p) :
    (toString L cfg l).map (List.filter inked) = if p.2 then some p.1 else none := by
  obtain ⟨h1, h2⟩ := res_ink L cfg l hU _ p h
  rw [toString_eq]
  have e1 : (resolveItems L cfg l).1 = (res L cfg false [Frame.default] l).1 := rfl
  have e2 : (resolveItems L cfg l).2 = (res L cfg false [Frame.default] l).2.map fun _ => () := rfl
  rw [e1, e2, Option.map_map, Option.map_map]
  have e3 := (filter_pieces cfg hn [] (res L cfg false [Frame.default] l).1).trans h1
  cases hr : (res L cfg false [Frame.default] l).2 with
  | none =>
    rw [hr] at h2
    rw [← h2]; rfl
  | some r =>
    rw [hr] at h2
    rw [← h2]
    exact congrArg some e3

theorem uniform_spelt {L : Lang ι} {x y : List (Item ι)} (h : spelt x = spelt y) (hU : Template.Uniform L x) : Template.Uniform L y := by
  rcases hU with hU | hU
  · exact .inl hU
  · refine .inr fun i hi => ?_
    cases i with
    | openEval =>
      have : Item.openEval ∈ spelt y := List.mem_flatMap.2 ⟨_, hi, List.mem_singleton.2 rfl⟩
      rw [← h] at this
      obtain ⟨j, hj, hm⟩ := List.mem_flatMap.1 this
      have := hU j hj
      cases j with
      | openEval => exact this
      | literal s => simp [spelt1] at hm
      | _ => simp [spelt1, isWs, erase] at hm
    | _ => rfl

/-- Streams with the same content have the same ink. -/
theorem same_ink (L : Lang ι) (hQ : HomQuote L) (cfg : Config) (hn : cfg.newline.filter inked = []) {x y : List (Item ι)}
    (h : spelt x = spelt y) (hU : Template.Uniform L x) (hs : sober [false] x = true) :
    (toString L cfg x).map (List.filter inked) = (toString L cfg y).map (List.filter inked) := by
  have h1 := sober_ink L x [Frame.default] hs
  obtain ⟨p, hp⟩ := Option.isSome_iff_exists.1 h1
  have hp' : ink L [Frame.default] y = some p := by rw [← ink_spelt L hQ, ← h, ink_spelt L hQ, hp]
  rw [toString_ink L cfg hn x hU p hp, toString_ink L cfg hn y (uniform_spelt h hU) p hp']

end Genco.Spec.Reflow
