import Verif.Proofs.Headers
import Verif.Proofs.Gaps

/-!
# Link numbers are irrelevant to formatting; header and body in one stream
-/

set_option autoImplicit false

namespace Genco

open Spec

variable {ι : Type}

theorem erase_closeEval {i : Item ι} (h : erase i = .closeEval) : i = .closeEval := by
  cases i <;> simp_all [erase]

theorem erase_literal {i : Item ι} {s : ItemStr} (h : erase i = .literal s) : i = .literal s := by
  cases i <;> simp_all [erase]

theorem res_erase (L : Lang ι) (cfg : Config) (n : Nat) (items : List (Item ι)) (hn : items.length ≤ n)
    (e : Bool) (st : List Frame) :
    res L cfg e st (items.map erase) =
      ((res L cfg e st items).1, (res L cfg e st items).2.map (List.map erase)) := by
  induction n generalizing items e st with
  | zero =>
    have : items = [] := by simpa using hn
    subst this
    simp [res_nil]
  | succ n ih =>
    cases items with
    | nil => simp [res_nil]
    | cons i rest =>
      simp only [List.length_cons] at hn
      cases st with
      | nil => rfl
      | cons head stack' =>
        have step : ∀ e st, res L cfg e st (rest.map erase) =
            ((res L cfg e st rest).1, (res L cfg e st rest).2.map (List.map erase)) :=
          fun e st => ih rest (by omega) e st
        have prelem : ∀ (a : List Act) (r : List Act × Option (List (Item ι))),
            pre a (r.1, r.2.map (List.map erase)) =
              ((pre a r).1, (pre a r).2.map (List.map erase)) := fun a r => rfl
        rw [List.map_cons]
        cases i with
        | openEval =>
          rw [show erase (Item.openEval : Item ι) = .openEval from rfl, res_cons, res_cons]
          simp only
          split
          · rcases rest with _ | ⟨i1, _ | ⟨i2, rest'⟩⟩
            · simp only [List.map_nil, res_nil]; rfl
            · have := step e (⟨false, false, true⟩ :: head :: stack')
              cases i1 <;> simp only [List.map_cons, List.map_nil, erase] at this ⊢ <;>
                rw [← prelem, ← this]
            · have h1 := step e (⟨false, false, true⟩ :: head :: stack')
              have h2 := ih rest' (by simp at hn; omega) e (head :: stack')
              cases i1 with
              | literal s =>
                cases i2 <;> simp only [List.map_cons, erase] at h1 ⊢ <;>
                  first | rw [h2, prelem] | rw [h1, prelem]
              | _ => simp only [List.map_cons, erase] at h1 ⊢; rw [h1, prelem]
          · rfl
        | closeEval =>
          rw [show erase (Item.closeEval : Item ι) = .closeEval from rfl, res_cons, res_cons]
          simp only
          split
          · rw [step, prelem]
          · rfl
        | closeQuote =>
          rw [show erase (Item.closeQuote : Item ι) = .closeQuote from rfl, res_cons, res_cons]
          simp only
          split
          · rfl
          · split
            · rw [step, prelem]
            · rfl
        | openQuote ev =>
          rw [show erase (Item.openQuote ev : Item ι) = .openQuote ev from rfl, res_cons, res_cons]
          simp only
          split
          · rw [step, prelem]
          · split
            · rw [step true [Frame.default]]
              cases h : (res L cfg true [Frame.default] rest).2 with
              | none => rfl
              | some rest' =>
                have hl := resolve_length _ _ _ _ _ _ _ h
                simp only [Option.map_some]
                rw [ih rest' (by omega), prelem]
            · rfl
        | indentation k =>
          rw [show erase (Item.indentation k : Item ι) = .indentation k from rfl, res_cons, res_cons]
          simp only
          split
          · rw [step]
          · rw [step, prelem]
        | register p i => simp only [erase]; rw [res_cons, res_cons]; simp only [step]
        | _ => simp only [erase]; rw [res_cons, res_cons]; simp only [step, prelem]

theorem resolveItems_erase (L : Lang ι) (cfg : Config) (items : List (Item ι)) :
    resolveItems L cfg (items.map erase) = resolveItems L cfg items := by
  have h := res_erase L cfg items.length items (Nat.le_refl _) false [Frame.default]
  unfold res at h
  simp only [resolveItems, h]
  cases (resolve L cfg items.length false [Frame.default] items).2 <;> rfl

theorem resolveItems_congr (L : Lang ι) (cfg : Config) {a b : List (Item ι)}
    (h : a.map erase = b.map erase) : resolveItems L cfg a = resolveItems L cfg b := by
  rw [← resolveItems_erase L cfg a, h, resolveItems_erase]

theorem resolveStreams_congr (L : Lang ι) (cfg : Config) {a b : List (List (Item ι))}
    (h : a.map (List.map erase) = b.map (List.map erase)) :
    resolveStreams L cfg a = resolveStreams L cfg b := by
  induction a generalizing b with
  | nil =>
    cases b with
    | nil => rfl
    | cons _ _ => simp at h
  | cons x a ih =>
    cases b with
    | nil => simp at h
    | cons y b =>
      simp only [List.map_cons, List.cons.injEq] at h
      simp only [resolveStreams, resolveItems_congr L cfg h.1, ih h.2]

theorem toVec_congr (L : Lang ι) (cfg : Config) {a b : List (Item ι)}
    (h : a.map erase = b.map erase) : toVec L cfg a = toVec L cfg b := by
  rw [toVec_eq, toVec_eq, resolveItems_congr L cfg h]

theorem toFileVec_congr (L : Lang ι) (cfg : Config) {a b : List (List (Item ι))}
    (h : a.map (List.map erase) = b.map (List.map erase)) : toFileVec L cfg a = toFileVec L cfg b := by
  rw [toFileVec_eq, toFileVec_eq, resolveStreams_congr L cfg h]

theorem res_head (L : Lang ι) (cfg : Config) (lead : Bool) (first : List Bit)
    (ls : List (Sep × List Bit)) (hl : SepsOk ls) (rest : List (Item ι)) :
    res L cfg false [Frame.default] (headItems lead first ls ++ rest) =
      pre (headActs L lead first ls) (res L cfg false [Frame.default] rest) := by
  have key : res L cfg false [Frame.default] (bitItems first ++ (sepItems ls ++ [.line]) ++ rest) =
      pre (bitsActs L first ++ (sepActs L ls ++ [.line])) (res L cfg false [Frame.default] rest) := by
    rw [List.append_assoc, List.append_assoc, res_bits, res_seps L cfg ls hl]
    simp only [List.singleton_append]
    rw [res_cons]
    simp only [pre_pre]
  unfold headItems headActs
  cases lead with
  | false => exact key
  | true =>
    simp only [if_true, List.cons_append, List.nil_append]
    rw [res_cons]
    simp only [key, pre_pre, List.singleton_append]

/-- A header and a body may as well be one stream. -/
theorem head_join (L : Lang ι) (cfg : Config) (lead : Bool) (first : List Bit)
    (ls : List (Sep × List Bit)) (hl : SepsOk ls) (body : List (Item ι)) :
    toFileVec L cfg [headItems lead first ls ++ body] = toFileVec L cfg [headItems lead first ls, body] := by
  rw [toFileVec_eq, toFileVec_eq]
  have e : ∀ l : List (Item ι), resolve L cfg l.length false [Frame.default] l =
      res L cfg false [Frame.default] l := fun _ => rfl
  have h : resolveStreams L cfg [headItems lead first ls ++ body] =
      resolveStreams L cfg [headItems lead first ls, body] := by
    simp only [resolveStreams, resolve_head L cfg lead first ls hl]
    simp only [resolveItems, e, res_head L cfg lead first ls hl]
    cases hb : (res L cfg false [Frame.default] body).2 <;> simp [pre, hb]
  rw [h]

/-- A single stream. -/
theorem toFileVec_single (L : Lang ι) (cfg : Config) (body : List (Item ι)) :
    toFileVec L cfg [body] = toVec L cfg body := by
  rw [toFileVec_eq, toVec_eq]
  simp only [resolveStreams]
  cases h : (resolveItems L cfg body).2 <;> simp [pre, h]

end Genco
