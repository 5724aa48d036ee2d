import Verif.Proofs.Erase
import Verif.Proofs.Split
import Verif.Spec.Shift

/-!
# Lemmas about text moved in
-/

set_option autoImplicit false

namespace Genco

open Spec Tokens

variable {ι : Type}

theorem marginText_add (cfg : Config) (a b : Nat) :
    marginText cfg (a + b) = marginText cfg a ++ marginText cfg b := by
  unfold marginText
  cases cfg.indentation <;> simp [Nat.add_mul]

/-- A run of the vector writer further in by `k` levels. -/
structure Moved (cfg : Config) (k : Nat) (pre : List Str) (st st' : LSt) (v v' : VecState) : Prop where
  line : st'.line = st.line
  spaces : st'.spaces = st.spaces
  indent : st'.indent = st.indent + k
  started : st.line ≠ .initial
  buf : v.lineBuffer ≠ []
  buf' : v'.lineBuffer = movedIn cfg k v.lineBuffer
  target : v'.target = pre ++ v.target.map (movedIn cfg k)

theorem flushPad_moved (cfg : Config) (k : Nat) (st st' : LSt) (h1 : st'.line = st.line)
    (h2 : st'.spaces = st.spaces) (h3 : st'.indent = st.indent + k) (h0 : 0 ≤ st.indent)
    (hl : st.line ≠ .none) : flushPad cfg st' = marginText cfg k ++ flushPad cfg st := by
  have : st'.indent.toNat = k + st.indent.toNat := by omega
  simp only [flushPad, h1, h2, hl, if_false, this, marginText_add, List.append_assoc]

theorem moved_act (cfg : Config) (k : Nat) (pre : List Str) (st st' : LSt) (v v' : VecState) (a : Act)
    (h : Moved cfg k pre st st' v v') (h0 : 0 ≤ st.indent) :
    Moved cfg k pre (actSt st a) (actSt st' a) (vecAct cfg st v a) (vecAct cfg st' v' a) := by
  obtain ⟨l, sp, ind⟩ := st
  obtain ⟨l', sp', ind'⟩ := st'
  obtain ⟨h1, h2, h3, h4, h5, h6, h7⟩ := h
  dsimp only at h1 h2 h3 h4 h0
  subst h1 h2
  cases a with
  | text s =>
    by_cases hs : s = []
    · simp only [actSt, vecAct, hs, ne_eq, not_true, if_false, if_true]
      exact ⟨rfl, rfl, h3, h4, h5, h6, h7⟩
    · simp only [actSt, vecAct, ne_eq, hs, not_false_eq_true, if_true, if_false]
      have hne : ∀ x : Str, x ++ s ≠ [] := by simp [hs]
      have hp := flushPad_moved cfg k ⟨l', sp', ind⟩ ⟨l', sp', ind'⟩ rfl rfl h3 h0
      cases l' with
      | initial => exact absurd rfl h4
      | none =>
        refine ⟨rfl, rfl, h3, by simp [LSt.flushed], by simp [hs], ?_, h7⟩
        have e : flushPad cfg ⟨.none, sp', ind'⟩ = flushPad cfg ⟨.none, sp', ind⟩ := by simp [flushPad]
        simp only [h6, movedIn, h5, if_false, e, List.append_eq_nil_iff, hs, and_false,
          List.append_assoc]
      | push =>
        refine ⟨rfl, rfl, h3, by simp [LSt.flushed], hne _, ?_, ?_⟩
        · simp only [movedIn, hne, if_false, hp (by simp), List.append_assoc]
        · simp [h6, h7]
      | line =>
        refine ⟨rfl, rfl, h3, by simp [LSt.flushed], hne _, ?_, ?_⟩
        · simp only [movedIn, hne, if_false, hp (by simp), List.append_assoc]
        · simp [h6, h7, movedIn]
  | push =>
    cases l' <;> first | exact absurd rfl h4 | exact ⟨rfl, rfl, h3, by simp [actSt], h5, h6, h7⟩
  | line =>
    cases l' <;> first | exact absurd rfl h4 | exact ⟨rfl, rfl, h3, by simp [actSt], h5, h6, h7⟩
  | space => exact ⟨rfl, rfl, h3, h4, h5, h6, h7⟩
  | indent n =>
    cases l' <;> first | exact absurd rfl h4 | exact ⟨rfl, rfl, by simp only [actSt, h3]; omega, by simp [actSt], h5, h6, h7⟩

theorem actSt_indent (st : LSt) (a : Act) : (actSt st a).indent = st.indent + actInd a := by
  cases a with
  | text s => by_cases h : s = [] <;> simp [actSt, h, LSt.flushed, actInd]
  | indent n => simp only [actSt, actInd]; cases st.line <;> rfl
  | space => simp [actSt, actInd]
  | _ => simp only [actSt, actInd, Int.add_zero]; cases st.line <;> rfl

theorem actsSt_indent (st : LSt) (acts : List Act) :
    (actsSt st acts).indent = st.indent + (acts.map actInd).sum := by
  induction acts generalizing st with
  | nil => simp [actsSt]
  | cons a r ih => rw [actsSt, ih, actSt_indent]; simp; omega

theorem moved_acts (cfg : Config) (k : Nat) (pre : List Str) (acts : List Act) (st st' : LSt)
    (v v' : VecState) (h : Moved cfg k pre st st' v v')
    (h0 : ∀ p, p <+: acts → 0 ≤ st.indent + (p.map actInd).sum) :
    Moved cfg k pre (actsSt st acts) (actsSt st' acts) (vecActs cfg st v acts) (vecActs cfg st' v' acts) := by
  induction acts generalizing st st' v v' with
  | nil => exact h
  | cons a r ih =>
    refine ih _ _ _ _ (moved_act cfg k pre st st' v v' a h (by simpa using h0 [] (by simp))) ?_
    intro p hp
    have := h0 (a :: p) (by simpa using hp)
    rw [actSt_indent]
    simp at this
    omega

theorem actsSt_last (st : LSt) (acts : List Act) (h : ∃ r s, acts = r ++ [.text s] ∧ s ≠ []) :
    (actsSt st acts).line = .none ∧ (actsSt st acts).spaces = 0 := by
  obtain ⟨r, s, rfl, hs⟩ := h
  rw [actsSt_append]
  simp [actsSt, actSt, hs, LSt.flushed]

/-- Code on lines of its own between an opening text and a closing one. -/
theorem vec_wrap (cfg : Config) (A B : List Act) (c : Str) (hc : c ≠ [])
    (hA : ∃ r s, A = r ++ [.text s] ∧ s ≠ []) (k : Nat) (hk : (A.map actInd).sum = k) (hB : Whole B) :
    (vecActs cfg .new .new (A ++ [.indent 1] ++ B ++ [.indent (-1), .text c])).intoVec =
      (vecActs cfg .new .new A).intoVec ++
        (vecActs cfg .new .new B).intoVec.map (movedIn cfg (k + 1)) ++ [marginText cfg k ++ c] := by
  rw [vecActs_append, vecActs_append, vecActs_append]
  have eA := actsSt_last .new A hA
  have iA := actsSt_indent .new A
  generalize hv : vecActs cfg .new .new A = v
  generalize hst : actsSt .new A = st at eA iA
  obtain ⟨l, sp, ind⟩ := st
  dsimp only at eA iA
  obtain ⟨rfl, rfl⟩ := eA
  have hi : ind = k := by rw [iA, hk]; simp [LSt.new]
  subst hi
  rw [actsSt_append, actsSt_append, hst]
  have e1 : actsSt ⟨.none, 0, (k : Int)⟩ [.indent 1] = ⟨.push, 0, (k : Int) + 1⟩ := rfl
  have e2 : vecActs cfg ⟨.none, 0, (k : Int)⟩ v [.indent 1] = v := rfl
  rw [e1, e2]
  obtain ⟨s, r, hB1, hs⟩ := hB.first
  have hin : ∀ p, p <+: r → 0 ≤ (p.map actInd).sum := by
    intro p hp
    have := hB.inside (.text s :: p) (by rw [hB1]; simpa using hp)
    simpa [actInd] using this
  have hlev : (r.map actInd).sum = 0 := by
    have := hB.level
    rw [hB1] at this
    simpa [actInd] using this
  have m0 : Moved cfg (k + 1) v.intoVec ⟨.none, 0, 0⟩ ⟨.none, 0, (k : Int) + 1⟩
      ⟨s, []⟩ ⟨marginText cfg (k + 1) ++ s, v.intoVec⟩ := by
    refine ⟨rfl, rfl, by simp, by simp, hs, by simp [movedIn, hs], by simp⟩
  have m := moved_acts cfg (k + 1) v.intoVec r _ _ _ _ m0 (by simpa using hin)
  have z : marginText cfg 0 = [] := by unfold marginText; cases cfg.indentation <;> simp
  have f1 : actsSt ⟨.push, 0, (k : Int) + 1⟩ B = actsSt ⟨.none, 0, (k : Int) + 1⟩ r := by
    rw [hB1, actsSt]; simp [actSt, hs, LSt.flushed]
  have f2 : vecActs cfg ⟨.push, 0, (k : Int) + 1⟩ v B =
      vecActs cfg ⟨.none, 0, (k : Int) + 1⟩ ⟨marginText cfg (k + 1) ++ s, v.intoVec⟩ r := by
    rw [hB1, vecActs]
    have t : ((k : Int) + 1).toNat = k + 1 := by omega
    simp [actSt, vecAct, hs, LSt.flushed, flushPad, t, VecState.intoVec]
  have f3 : vecActs cfg .new .new B = vecActs cfg ⟨.none, 0, 0⟩ ⟨s, []⟩ r := by
    rw [hB1, vecActs]
    simp [actSt, vecAct, hs, LSt.flushed, flushPad, LSt.new, VecState.new, z]
  have f4 : actsSt .new B = actsSt ⟨.none, 0, 0⟩ r := by
    rw [hB1, actsSt]; simp [actSt, hs, LSt.flushed, LSt.new]
  have gB := actsSt_last .new B hB.last
  rw [f4] at gB
  rw [f1, f2, f3]
  have iB := actsSt_indent ⟨.none, 0, 0⟩ r
  rw [hlev] at iB
  generalize vecActs cfg ⟨.none, 0, 0⟩ ⟨s, []⟩ r = w at m
  generalize actsSt ⟨.none, 0, 0⟩ r = x at m gB iB
  generalize vecActs cfg ⟨.none, 0, (k : Int) + 1⟩ ⟨marginText cfg (k + 1) ++ s, v.intoVec⟩ r = w' at m
  generalize actsSt ⟨.none, 0, (k : Int) + 1⟩ r = x' at m
  obtain ⟨l, sp, ind⟩ := x'
  obtain ⟨m1, m2, m3, m4, m5, m6, m7⟩ := m
  dsimp only at m1 m2 m3 iB
  rw [gB.1] at m1
  rw [gB.2] at m2
  subst m1 m2
  have t : (ind + -1).toNat = k := by omega
  simp [vecActs, vecAct, hc, actSt, flushPad, VecState.intoVec, m6, m7, t]

/-- The items of code wrapped in this way. -/
theorem wrap_items (a : List (Item ι)) (x : Item ι) (hx : isWs x = false) (b : List (Item ι))
    (y z : Item ι) (m w : List (Item ι)) (hy : isWs y = false) (hz : isWs z = false)
    (h1 : (fromIter b).items = y :: m) (h2 : (fromIter b).items = w ++ [z]) (c : ItemStr) :
    (fromIter (a ++ [x] ++ [Item.indentation 1] ++ (fromIter b).items ++
        [Item.indentation (-1), Item.literal c])).items.map erase =
      ((fromIter (a ++ [x])).items ++ [Item.indentation 1] ++ (fromIter b).items ++
        [Item.indentation (-1), Item.literal c]).map erase := by
  have e1 : (fromIter ((fromIter b).items ++ [Item.indentation (-1), Item.literal c])).items.map erase =
      ((fromIter b).items ++ [Item.indentation (-1), Item.literal c]).map erase := by
    have hi := congrArg (fun t : Tokens ι => t.items.map erase) (fromIter_idem b)
    rw [List.map_append, ← hi, h2, List.append_assoc]
    simp only [List.singleton_append]
    rw [fromIter_split _ _ _ hz, fromIter_split _ _ _ hz]
    simp only [List.append_assoc, List.cons_append]
    rfl
  have e2 : (fromIter ([Item.indentation 1] ++ (fromIter b).items ++ [Item.indentation (-1), Item.literal c])).items.map erase =
      ([Item.indentation 1] ++ (fromIter b).items ++ [Item.indentation (-1), Item.literal c]).map erase := by
    rw [List.append_assoc, List.map_append, ← e1, h1, show y :: m ++
      [Item.indentation (-1), Item.literal c] = y :: (m ++ [Item.indentation (-1), Item.literal c]) from rfl,
      fromIter_split _ _ _ hy]
    have := fromIter_split [] (m ++ [Item.indentation (-1), Item.literal c]) y hy
    rw [List.nil_append] at this
    rw [this]
    rfl
  have e3 := fromIter_split a ([Item.indentation 1] ++ (fromIter b).items ++
    [Item.indentation (-1), Item.literal c]) x hx
  have e4 := fromIter_split a [] x hx
  have e5 : ∀ r : List (Item ι), a ++ [x] ++ r = a ++ x :: r := by simp
  have e6 : (fromIter ([] : List (Item ι))).items = [] := rfl
  rw [List.append_assoc, List.append_assoc, e5, ← List.append_assoc, e3, e2]
  simp only [List.map_append, e4, e6]
  simp

/-- Lines of code wrapped in this way. -/
theorem wrap_vec (L : Lang ι) (cfg : Config) (a b : Code ι) (pa : a.plain = true) (pb : b.plain = true)
    (c : ItemStr) (hc : c.text ≠ []) (hA : ∃ r s, a.acts L cfg = r ++ [.text s] ∧ s ≠ []) (k : Nat)
    (hk : ((a.acts L cfg).map actInd).sum = k) (hB : Whole (b.acts L cfg)) :
    ∃ la lb, toVec L cfg a.items = some la ∧ toVec L cfg b.items = some lb ∧
      toVec L cfg (a.items ++ [.indentation 1] ++ b.items ++ [.indentation (-1), .literal c]) =
        some (la ++ lb.map (movedIn cfg (k + 1)) ++ [marginText cfg k ++ c.text]) := by
  refine ⟨_, _, by rw [toVec_eq, resolveItems_code L cfg a pa]; rfl,
    by rw [toVec_eq, resolveItems_code L cfg b pb]; rfl, ?_⟩
  have h : resolveItems L cfg (a.items ++ [.indentation 1] ++ b.items ++
      [.indentation (-1), .literal c]) =
      (a.acts L cfg ++ [.indent 1] ++ b.acts L cfg ++ [.indent (-1), .text c.text], some ()) := by
    have e : ∀ l : List (Item ι), resolveItems L cfg l =
      ((res L cfg false [Frame.default] l).1, (res L cfg false [Frame.default] l).2.map (fun _ => ())) :=
      fun l => rfl
    have h1 := res_code L cfg a pa ([.indentation 1] ++ (b.items ++ [.indentation (-1), .literal c]))
      Frame.default [] rfl rfl
    have h2 := res_plain L cfg [.indentation 1] (by simp [isPlain])
      (b.items ++ [.indentation (-1), .literal c]) false Frame.default [] rfl
    have h3 := res_code L cfg b pb ([.indentation (-1), .literal c] ++ []) Frame.default [] rfl rfl
    have h4 := res_plain L cfg [.indentation (-1), .literal c] (by simp [isPlain]) [] false
      Frame.default [] rfl
    rw [e]
    simp only [List.append_assoc, List.append_nil] at h1 h2 h3 h4 ⊢
    rw [h1, h2, h3, h4]
    simp [pre, plainActs, res, resolve]
  rw [toVec_eq, h]
  simp only [Option.map_some, Option.some.injEq]
  exact vec_wrap cfg _ _ _ hc hA k hk hB

end Genco
