import Verif.Spec.Open
import Verif.Proofs.Register

/-!
# Streams with strings left open
-/

set_option autoImplicit false

namespace Genco
open Spec

variable {ι : Type}

/-- A frame as the specification sees it. -/
def Frame.o (f : Frame) : Opened := ⟨f.inQuote, f.hasEval, f.endOnEval⟩

/-- Behind the items of a sheet. -/
def onward (L : Lang ι) (cfg : Config) (a : List Act) : List Sheet → List (Item ι) → Option (List Act)
  | [], _ => some a
  | t :: ts, r => asks L cfg (Sheet.paste L cfg ⟨[], a⟩ t) ts r

theorem paste_frames (L : Lang ι) (cfg : Config) (o o' : List Opened) (a : List Act) (t : Sheet) :
    Sheet.paste L cfg ⟨o, a⟩ t = Sheet.paste L cfg ⟨o', a⟩ t := rfl

theorem finish_frames (L : Lang ι) (cfg : Config) (o o' : List Opened) (a : List Act) (ts : List Sheet) :
    finish L cfg ⟨o, a⟩ ts = finish L cfg ⟨o', a⟩ ts := by
  cases ts <;> rfl

theorem asks_nil (L : Lang ι) (cfg : Config) (s : Sheet) (ts : List Sheet) :
    asks L cfg s ts [] = some (finish L cfg s ts) := by
  rcases s with ⟨_ | ⟨f, fs⟩, a⟩ <;> rfl

theorem asks_openEval (L : Lang ι) (cfg : Config) (f : Opened) (fs : List Opened) (a : List Act)
    (below : List Sheet) (r : List (Item ι)) :
    asks L cfg ⟨f :: fs, a⟩ below (.openEval :: r) =
      if f.inQuote then
        match r with
        | .literal s :: .closeEval :: r =>
          asks L cfg ⟨f :: fs, a ++ (L.evalLiteral s.text).map .text⟩ below r
        | _ => asks L cfg ⟨⟨false, false, true⟩ :: f :: fs, a ++ L.startEval.map .text⟩ below r
      else none := by
  rcases r with _ | ⟨i1, _ | ⟨i2, r⟩⟩
  · rfl
  · cases i1 <;> rfl
  · cases i1 <;> cases i2 <;> rfl

theorem asks_res (L : Lang ι) (cfg : Config) (n : Nat) : ∀ (items : List (Item ι)), items.length ≤ n →
    ∀ (stack : List Frame) (a : List Act) (below : List Sheet) (e : Bool), bottomOk stack = true →
    e = !below.isEmpty →
    asks L cfg ⟨stack.map Frame.o, a⟩ below items =
      (res L cfg e stack items).2.bind (onward L cfg (a ++ (res L cfg e stack items).1) below) := by
  induction n with
  | zero =>
    intro items hi stack a below e hb he
    have : items = [] := by simpa using hi
    subst this
    rw [asks_nil]
    cases below <;> simp [res, resolve, onward, finish, asks_nil]
    rfl
  | succ n ih =>
    intro items hi stack a below e hb he
    cases items with
    | nil =>
      rw [asks_nil]
      cases below <;> simp [res, resolve, onward, finish, asks_nil]
      rfl
    | cons i r =>
      simp only [List.length_cons] at hi
      cases stack with
      | nil => simp [bottomOk] at hb
      | cons head st =>
        have go : ∀ (st' : List Frame) (q : List Act), bottomOk st' = true →
            asks L cfg ⟨st'.map Frame.o, a ++ q⟩ below r =
              (pre q (res L cfg e st' r)).2.bind (onward L cfg (a ++ (pre q (res L cfg e st' r)).1) below) := by
          intro st' q hb'
          rw [ih r (by omega) st' (a ++ q) below e hb' he]
          simp only [pre, List.append_assoc]
        have same : a = a ++ [] := (List.append_nil a).symm
        rw [res_cons]
        cases i with
        | register p j => 
          have := go (head :: st) [] hb
          simpa [asks, plainActs, pre] using this
        | literal s => exact go (head :: st) _ hb
        | lang p j => exact go (head :: st) _ hb
        | push => exact go (head :: st) _ hb
        | line => exact go (head :: st) _ hb
        | space => exact go (head :: st) _ hb
        | indentation k =>
          by_cases hk : k = 0
          · have := go (head :: st) [] hb
            simpa [asks, plainActs, pre, hk] using this
          · have := go (head :: st) [.indent k] hb
            simpa [asks, plainActs, pre, hk] using this
        | openQuote ev =>
          simp only [List.map_cons, asks]
          cases hq : head.inQuote with
          | false =>
            simp only [Frame.o, hq, Bool.not_false, if_true]
            exact go (⟨true, ev, head.endOnEval⟩ :: st) _ (bottomOk_set hb rfl)
          | true =>
            simp only [Frame.o, hq, Bool.not_true, Bool.false_eq_true, if_false]
            cases ev with
            | true => rfl
            | false =>
              simp only [Bool.false_eq_true, if_false, Bool.not_false, if_true]
              have h1 := ih r (by omega) [Frame.default] [] (⟨Frame.o head :: st.map Frame.o, a⟩ :: below) true rfl rfl
              simp only [List.map_cons, List.map_nil, List.nil_append, Frame.o, hq] at h1
              refine Eq.trans h1 ?_
              cases hr : (res L cfg true [Frame.default] r).2 with
              | none => rfl
              | some r' =>
                simp only [Option.bind_some, onward]
                have hl : r'.length ≤ n := by
                  have := resolve_length L cfg _ _ _ _ _ hr
                  omega
                have h2 := ih r' hl (head :: st) (a ++ texts (L.writeQuoted (renderActs cfg
                  (texts (L.openQuote false) ++ (res L cfg true [Frame.default] r).1 ++
                    texts (L.closeQuote false))))) below e hb he
                rw [renderActs_eq] at h2 ⊢
                simp only [List.map_cons, Frame.o, hq] at h2
                simp only [Sheet.paste, Sheet.add, pre, ← List.append_assoc]
                exact h2
        | closeQuote =>
          simp only [List.map_cons, asks]
          cases below with
          | cons t ts =>
            simp only [he, List.isEmpty_cons, Bool.not_false, if_true, Option.bind_some, onward, List.append_nil]
            rfl
          | nil =>
            simp only [he, List.isEmpty_nil, Bool.not_true, Bool.false_eq_true, if_false]
            simp only [he, List.isEmpty_nil, Bool.not_true] at go
            cases hq : head.inQuote with
            | false => simp [Frame.o, hq]
            | true =>
              simp only [Frame.o, hq, if_true]
              exact go (⟨false, false, head.endOnEval⟩ :: st) _ (bottomOk_set hb rfl)
        | openEval =>
          simp only [List.map_cons, asks_openEval]
          cases hq : head.inQuote with
          | false => simp [Frame.o, hq]
          | true =>
            have other : asks L cfg ⟨⟨false, false, true⟩ :: Frame.o head :: st.map Frame.o, a ++ L.startEval.map .text⟩ below r = _ :=
              go (⟨false, false, true⟩ :: head :: st) _ (bottomOk_push hb)
            simp only [Frame.o, hq, if_true] at other ⊢
            rcases r with _ | ⟨i1, _ | ⟨i2, r⟩⟩
            · exact other
            · cases i1 <;> exact other
            · cases i1 with
              | literal s =>
                cases i2 with
                | closeEval =>
                  have h2 := ih r (by simp at hi; omega) (head :: st) (a ++ texts (L.evalLiteral s.text)) below e hb he
                  simp only [List.map_cons, Frame.o, hq] at h2
                  refine Eq.trans h2 ?_
                  simp only [pre, List.append_assoc]
                | _ => exact other
              | _ => exact other
        | closeEval =>
          simp only [List.map_cons, asks]
          cases hv : head.endOnEval with
          | false => simp [Frame.o, hv]
          | true =>
            simp only [Frame.o, hv, if_true]
            exact go st _ (bottomOk_cons hb hv)

theorem asks_resolveItems (L : Lang ι) (cfg : Config) (items : List (Item ι)) :
    asks L cfg .blank [] items = (resolveItems L cfg items).2.map (fun _ => (resolveItems L cfg items).1) := by
  have h := asks_res L cfg items.length items (Nat.le_refl _) [Frame.default] [] [] false rfl rfl
  refine Eq.trans h ?_
  have h1 : (resolveItems L cfg items).1 = (res L cfg false [Frame.default] items).1 := rfl
  have h2 : (resolveItems L cfg items).2 = (res L cfg false [Frame.default] items).2.map (fun _ => ()) := rfl
  rw [h1, h2]
  cases (res L cfg false [Frame.default] items).2 <;> rfl

end Genco
