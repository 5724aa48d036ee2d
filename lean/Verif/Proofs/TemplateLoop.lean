import Verif.Proofs.TemplateRun

/-!
# Loops of blocks
-/

set_option autoImplicit false

namespace Genco.Macro

open Spec Spec.MacroFile Spec.Template Tokens

variable {ι : Type}

/-- A hole for a block. -/
abbrev Given (ι : Type) := List (Call ι) × List Str

def givenHole (p : Given ι) : Cur → Node (Given ι) := fun cur => .eval cur p

def givenOf (n : Cur → Node (Given ι)) : Given ι :=
  match n ⟨⟨0, 0⟩, ⟨0, 0⟩⟩ with
  | .eval _ p => p
  | _ => ([], [])

def givenRow (above : Nat) (p : Given ι) : Row (Given ι) := ⟨above, 0, .hole 0 (givenHole p), []⟩

theorem slotOk_given {L : Lang ι} {cfg : Config} {p : Given ι} (h : BlockOf L cfg p.1 p.2) :
    SlotOk L cfg (fun n => (givenOf n).1) (fun n => (givenOf n).2) (.hole 0 (givenHole p)) :=
  ⟨h.block, h.uniform, h.lines⟩

theorem slotOk_word (L : Lang ι) (cfg : Config) (s : Str) (h : s ≠ []) :
    SlotOk L cfg (fun n => (givenOf n).1) (fun n => (givenOf n).2) (.word s) := by
  obtain ⟨h1, h2⟩ := block_text L cfg (.static s) h
  exact ⟨h1, .inr (fun i hi => by cases List.mem_singleton.1 hi; rfl), h2⟩

theorem depth_zero (past : List Nat) : depth 0 past = 0 := by
  unfold depth
  induction past with
  | nil => rfl
  | cons p past ih => rw [enclosing, if_neg (Nat.not_lt_zero p)]; exact ih

theorem movedIn_zero (cfg : Config) : movedIn cfg 0 = id := by
  funext s
  have z : marginText cfg 0 = [] := by unfold marginText; cases cfg.indentation <;> simp
  by_cases h : s = [] <;> simp [movedIn, h, z]

theorem tail_given (b : Bool) (ps : List (Given ι)) : ∀ past,
    tailCalls (fun n => (givenOf n).1) 0 past (ps.map (givenRow (if b then 1 else 0))) =
      ps.flatMap (fun p => (if b then .line else .push) :: p.1) := by
  induction ps with
  | nil => intro past; rw [List.map_nil, tailCalls, depth_zero]; rfl
  | cons p ps ih =>
    intro past
    rw [List.map_cons, tailCalls, show (givenRow (if b then 1 else 0) p).column = 0 from rfl, ih, depth_zero, depth_zero,
      List.flatMap_cons]
    cases b <;> rfl

theorem last_given (k : Nat) (ps : List (Given ι)) : ∀ past, lastLevel (0 :: past) (ps.map (givenRow k)) = 0 := by
  induction ps with
  | nil => intro past; exact depth_zero past
  | cons p ps ih => intro past; exact ih (0 :: past)

theorem lines_given (cfg : Config) (b : Bool) (ps : List (Given ι)) : ∀ past, past ≠ [] → ∀ a : List Str,
    a ++ Template.outLines cfg (fun n => (givenOf n).2) past (ps.map (givenRow (if b then 1 else 0))) =
      (ps.map (·.2)).foldl (fun a v => (Template.Sep.stack b).between a v) a := by
  induction ps with
  | nil => intro past hp a; rw [List.map_nil, Template.outLines]; simp
  | cons p ps ih =>
    intro past hp a
    rw [List.map_cons, Template.outLines, List.map_cons, List.foldl_cons, ← ih (0 :: past) (by simp),
      show (givenRow (if b then 1 else 0) p).column = 0 from rfl, depth_zero, movedIn_zero, List.map_id]
    cases b <;> simp [hp, givenRow, Row.lines, Slot.lines, Template.Sep.between, givenOf, givenHole]

theorem join_flatMap (w : List (Call ι)) (cs : List (Call ι)) (ds : List (List (Call ι))) :
    joinCalls w (cs :: ds) = cs ++ ds.flatMap (fun d => w ++ d) := by
  induction ds generalizing cs with
  | nil => simp [joinCalls]
  | cons d ds ih => rw [joinCalls, ih]; simp

theorem seam_word (a : List Str) (x s y : Str) (b : List Str) : seam (seam a x [s]) y b = seam a (x ++ s ++ y) b := by
  simp [seam]

theorem join_blocks (L : Lang ι) (hQ : HomQuote L) (cfg : Config) (sp : Template.Sep) (hsp : sp.ok) (p : Given ι)
    (ps : List (Given ι)) (h : ∀ q ∈ p :: ps, BlockOf L cfg q.1 q.2) :
    BlockOf L cfg (joinCalls sp.calls ((p :: ps).map (·.1))) (sp.lines ((p :: ps).map (·.2))) := by
  have key : ∃ l ls, allCalls (fun n => (givenOf n).1) l ls = joinCalls sp.calls ((p :: ps).map (·.1)) ∧
      lastLevel [] (l :: ls) = 0 ∧
      Template.outLines cfg (fun n : Cur → Node (Given ι) => (givenOf n).2) [] (l :: ls) = sp.lines ((p :: ps).map (·.2)) ∧
      ∀ x ∈ l :: ls, ∀ s ∈ x.slots, SlotOk L cfg (fun n => (givenOf n).1) (fun n => (givenOf n).2) s := by
    rw [List.map_cons, join_flatMap, List.map_cons, Template.Sep.lines, List.flatMap_map]
    cases sp with
    | stack b =>
      refine ⟨givenRow 0 p, ps.map (givenRow (if b then 1 else 0)), ?_, ?_, ?_, ?_⟩
      · rw [allCalls, show (givenRow 0 p).column = 0 from rfl, tail_given]
        rfl
      · exact last_given _ ps []
      · rw [Template.outLines, ← lines_given cfg b ps [0] (by simp), show (givenRow 0 p).column = 0 from rfl, depth_zero, movedIn_zero, List.map_id]
        simp [givenRow, Row.lines, Slot.lines, givenOf, givenHole]
      · intro x hx s hs
        rcases List.mem_cons.1 hx with rfl | hx
        · cases List.mem_singleton.1 hs
          exact slotOk_given (h p (by simp))
        · obtain ⟨q, hq, rfl⟩ := List.mem_map.1 hx
          cases List.mem_singleton.1 hs
          exact slotOk_given (h q (by simp [hq]))
    | gap b =>
      refine ⟨⟨0, 0, .hole 0 (givenHole p), ps.map (fun q => (if b then 1 else 0, .hole 0 (givenHole q)))⟩, [], ?_, rfl, ?_, ?_⟩
      · rw [allCalls, tailCalls, depth_zero, restCalls, List.flatMap_map]
        cases b <;> simp [slotCalls, givenOf, givenHole, Template.Sep.calls]
      · rw [Template.outLines, depth_zero, movedIn_zero, List.map_id, Row.lines, List.foldl_map, List.foldl_map]
        cases b <;> simp [Template.outLines, Slot.lines, givenOf, givenHole, Template.Sep.between]
      · intro x hx s hs
        cases List.mem_singleton.1 hx
        rcases List.mem_cons.1 hs with rfl | hs
        · exact slotOk_given (h p (by simp))
        · obtain ⟨z, hz, rfl⟩ := List.mem_map.1 hs
          obtain ⟨q, hq, rfl⟩ := List.mem_map.1 hz
          exact slotOk_given (h q (by simp [hq]))
    | text b t a =>
      refine ⟨⟨0, 0, .hole 0 (givenHole p), ps.flatMap (fun q => [(if b then 1 else 0, .word t),
        (if a then 1 else 0, .hole 0 (givenHole q))])⟩, [], ?_, rfl, ?_, ?_⟩
      · rw [allCalls, tailCalls, depth_zero, restCalls, List.flatMap_assoc]
        cases b <;> cases a <;> simp [slotCalls, givenOf, givenHole, Template.Sep.calls]
      · rw [Template.outLines, depth_zero, movedIn_zero, List.map_id, Row.lines, List.foldl_flatMap, List.foldl_map]
        cases b <;> cases a <;> simp [Template.outLines, Slot.lines, givenOf, givenHole, Template.Sep.between, seam_word]
      · intro x hx s hs
        cases List.mem_singleton.1 hx
        rcases List.mem_cons.1 hs with rfl | hs
        · exact slotOk_given (h p (by simp))
        · obtain ⟨z, hz, rfl⟩ := List.mem_map.1 hs
          obtain ⟨q, hq, hz⟩ := List.mem_flatMap.1 hz
          rcases List.mem_cons.1 hz with rfl | hz
          · exact slotOk_word L cfg t hsp
          · cases List.mem_singleton.1 hz
            exact slotOk_given (h q (by simp [hq]))
  obtain ⟨l, ls, h1, h2, h3, h4⟩ := key
  obtain ⟨v1, v2⟩ := vec_template L hQ cfg _ _ l ls h4
  rw [← h1, ← h3]
  exact ⟨v2 h2, uniform_all L _ l ls (fun x hx s hs => (h4 x hx s hs).uniform), v1⟩

theorem peek_blocks {Env : Type} (f : Env → List (Call ι)) (w : List (Call ι)) (xs : List Env) :
    peekLoop f (fun _ => w) xs = joinCalls w (xs.map f) := by
  induction xs with
  | nil => rfl
  | cons x xs ih =>
    rw [peekLoop, ih]
    cases xs <;> simp [joinCalls]

end Genco.Macro
