import Verif.Proofs.Layout
import Verif.Spec.Quoting

/-!
# The item stage on trees, and what it accepts
-/

set_option autoImplicit false

namespace Genco

open Spec

variable {ι σ : Type}

theorem resolve_nil (L : Lang ι) (cfg : Config) (fuel : Nat) (e : Bool) (st : List Frame) :
    resolve L cfg fuel e st [] = ([], some []) := by
  cases fuel <;> rfl

/-- The remaining cursor is never longer. -/
theorem resolve_length (L : Lang ι) (cfg : Config) (fuel : Nat) (e : Bool) (st : List Frame)
    (items r : List (Item ι)) (h : (resolve L cfg fuel e st items).2 = some r) :
    r.length ≤ items.length := by
  induction fuel generalizing e st items r with
  | zero => simp [resolve] at h; simp [h]
  | succ fuel ih =>
    cases items with
    | nil => simp [resolve] at h; simp [← h]
    | cons i rest =>
      cases st with
      | nil => simp [resolve] at h; simp [h]
      | cons head stack' =>
        simp only [resolve] at h
        have step : ∀ e st, (resolve L cfg fuel e st rest).2 = some r →
            r.length ≤ (i :: rest).length := by
          intro e st h
          have := ih _ _ _ _ h
          simp; omega
        cases i with
        | openQuote e =>
          simp only at h
          split at h
          · exact step _ _ h
          · split at h
            · split at h
              · simp at h
              · rename_i rest' hr
                have h1 := ih _ _ _ _ hr
                have h2 := ih _ _ _ _ h
                simp; omega
            · simp at h
        | closeQuote =>
          simp only at h
          split at h
          · simp only [Option.some.injEq] at h; simp [← h]
          · split at h
            · exact step _ _ h
            · simp at h
        | openEval =>
          simp only at h
          split at h
          · split at h
            · have := ih _ _ _ _ h
              simp; omega
            · exact step _ _ h
          · simp at h
        | closeEval =>
          simp only at h
          split at h
          · exact step _ _ h
          · simp at h
        | indentation n =>
          simp only at h
          split at h <;> exact step _ _ h
        | _ => exact step _ _ h

/-- Enough fuel is enough. -/
theorem resolve_fuel (L : Lang ι) (cfg : Config) (f1 f2 : Nat) (e : Bool) (st : List Frame)
    (items : List (Item ι)) (h1 : items.length ≤ f1) (h2 : items.length ≤ f2) :
    resolve L cfg f1 e st items = resolve L cfg f2 e st items := by
  induction f1 generalizing f2 e st items with
  | zero =>
    have : items = [] := by simpa using h1
    rw [this, resolve_nil, resolve_nil]
  | succ f1 ih =>
    cases items with
    | nil => rw [resolve_nil, resolve_nil]
    | cons i rest =>
      cases f2 with
      | zero => simp at h2
      | succ f2 =>
        simp only [List.length_cons] at h1 h2
        have step : ∀ e st, resolve L cfg f1 e st rest = resolve L cfg f2 e st rest :=
          fun e st => ih _ _ _ _ (by omega) (by omega)
        cases st with
        | nil => rfl
        | cons head stack' =>
          simp only [resolve]
          cases i with
          | openQuote e =>
            simp only [step]
            split
            · rfl
            · split
              · split
                · rfl
                · rename_i rest' hr
                  have := resolve_length _ _ _ _ _ _ _ hr
                  rw [ih f2 _ _ rest' (by omega) (by omega)]
              · rfl
          | openEval =>
            simp only [step]
            split
            · split
              · rename_i s rest'
                simp only [List.length_cons] at h1 h2
                rw [ih f2 _ _ rest' (by omega) (by omega)]
              · rfl
            · rfl
          | _ => simp only [step]

/-- The item stage with enough fuel. -/
def res (L : Lang ι) (cfg : Config) (e : Bool) (st : List Frame) (items : List (Item ι)) :
    List Act × Option (List (Item ι)) := resolve L cfg items.length e st items

theorem res_of (L : Lang ι) (cfg : Config) (f : Nat) (e : Bool) (st : List Frame)
    (items : List (Item ι)) (h : items.length ≤ f) :
    resolve L cfg f e st items = res L cfg e st items :=
  resolve_fuel L cfg _ _ e st items h (Nat.le_refl _)

theorem res_plain (L : Lang ι) (cfg : Config) (items : List (Item ι))
    (hp : ∀ i ∈ items, isPlain i = true) (rest : List (Item ι)) (e : Bool)
    (head : Frame) (stack : List Frame) (hq : head.inQuote = false) :
    res L cfg e (head :: stack) (items ++ rest) =
      pre (items.flatMap (plainActs L.langItem)) (res L cfg e (head :: stack) rest) := by
  unfold res
  rw [List.length_append]
  exact resolve_plain L cfg items hp rest rest.length e head stack hq

theorem pre_pre {α : Type} (a b : List Act) (r : List Act × Option α) :
    pre a (pre b r) = pre (a ++ b) r := by simp [pre]

@[simp] theorem pre_snd {α : Type} (a : List Act) (r : List Act × Option α) : (pre a r).2 = r.2 := rfl

theorem pre_nil {α : Type} (r : List Act × Option α) : pre [] r = r := rfl

/-- A plain item in a string. -/
theorem res_quoted (L : Lang ι) (cfg : Config) (i : Item ι) (hp : isPlain i = true)
    (rest : List (Item ι)) (e : Bool) (head : Frame) (stack : List Frame)
    (hq : head.inQuote = true) :
    res L cfg e (head :: stack) (i :: rest) =
      pre (quotedActs L i) (res L cfg e (head :: stack) rest) := by
  unfold res
  simp only [List.length_cons, resolve]
  cases i with
  | literal s => simp [hq, quotedActs, texts]
  | lang p i => simp [quotedActs, plainActs, texts]
  | register p i => simp [quotedActs, plainActs, pre]
  | indentation n =>
    simp only [quotedActs, plainActs]
    split <;> simp [pre]
  | push => rfl
  | line => rfl
  | space => rfl
  | _ => simp [isPlain] at hp

theorem single_eq {c : Code ι} {s : Str} (h : c.single = some s) :
    ∃ t : ItemStr, c = .item (.literal t) .nil ∧ t.text = s := by
  unfold Code.single at h
  split at h
  · rename_i t
    exact ⟨t, rfl, by simpa using h⟩
  · simp at h

/-- The look-ahead of an evaluation sees a single literal exactly for `single`
content. -/
theorem lookahead (c : Code ι) (hc : c.plain = true) (rest : List (Item ι))
    (s : ItemStr) (r : List (Item ι)) (h : c.items ++ .closeEval :: rest = .literal s :: .closeEval :: r) :
    c = .item (.literal s) .nil ∧ r = rest := by
  cases c with
  | nil => simp [Code.items] at h
  | item i c =>
    cases c with
    | nil => simp [Code.items] at h; exact ⟨by rw [h.1], h.2.symm⟩
    | item j c =>
      simp [Code.items] at h
      simp [Code.plain, h.2.1, isPlain] at hc
    | quote e b c => simp [Code.items] at h
  | quote e b c => simp [Code.items] at h

theorem resolve_single (L : Lang ι) (cfg : Config) (fuel : Nat) (e : Bool) (head : Frame)
    (stack : List Frame) (hq : head.inQuote = true) (t : ItemStr) (r : List (Item ι)) :
    resolve L cfg (fuel + 1) e (head :: stack) (.openEval :: .literal t :: .closeEval :: r) =
      pre (texts (L.evalLiteral t.text)) (resolve L cfg fuel e (head :: stack) r) := by
  rw [resolve]
  simp only [hq, if_true]

mutual
theorem res_code (L : Lang ι) (cfg : Config) (c : Code ι) (hc : c.plain = true)
    (rest : List (Item ι)) (head : Frame) (stack : List Frame) (hq : head.inQuote = false)
    (he : head.hasEval = false) :
    res L cfg false (head :: stack) (c.items ++ rest) =
      pre (c.acts L cfg) (res L cfg false (head :: stack) rest) := by
  match c with
  | .nil => rfl
  | .item i r =>
    simp only [Code.plain, Bool.and_eq_true] at hc
    have h := res_plain L cfg [i] (by simpa using hc.1) (r.items ++ rest) false head stack hq
    have h2 := res_code L cfg r hc.2 rest head stack hq he
    simp only [List.singleton_append, List.flatMap_cons, List.flatMap_nil, List.append_nil] at h
    simp only [Code.items, List.cons_append, h, h2, pre_pre, Code.acts]
  | .quote e b r =>
    simp only [Code.plain, Bool.and_eq_true] at hc
    have h2 := res_code L cfg r hc.2 rest head stack hq he
    have h1 := res_body L cfg b hc.1 (.closeQuote :: r.items ++ rest)
      { head with hasEval := e, inQuote := true } stack rfl
    have hopen : res L cfg false (head :: stack)
        (.openQuote e :: (b.items ++ (.closeQuote :: r.items ++ rest))) =
        pre (texts (L.openQuote e)) (res L cfg false
          ({ head with hasEval := e, inQuote := true } :: stack)
          (b.items ++ (.closeQuote :: r.items ++ rest))) := by
      simp only [res, List.length_cons, resolve, hq]
      rfl
    have hclose : res L cfg false ({ head with hasEval := e, inQuote := true } :: stack)
        (.closeQuote :: (r.items ++ rest)) =
        pre (texts (L.closeQuote e)) (res L cfg false (head :: stack) (r.items ++ rest)) := by
      simp only [res, List.length_cons, resolve]
      obtain ⟨q, v, n⟩ := head
      simp only at hq he
      subst hq he
      rfl
    simp only [Code.items, List.cons_append, List.append_assoc, Code.acts] at h1 ⊢
    simp only [List.cons_append] at hopen
    rw [hopen, h1, hclose, h2, pre_pre, pre_pre, pre_pre]
    simp [texts]
theorem res_body (L : Lang ι) (cfg : Config) (b : Body ι) (hb : b.plain = true)
    (rest : List (Item ι)) (head : Frame) (stack : List Frame) (hq : head.inQuote = true) :
    res L cfg false (head :: stack) (b.items ++ rest) =
      pre (b.acts L cfg) (res L cfg false (head :: stack) rest) := by
  match b with
  | .nil => rfl
  | .item i r =>
    simp only [Body.plain, Bool.and_eq_true] at hb
    have h := res_quoted L cfg i hb.1 (r.items ++ rest) false head stack hq
    have h2 := res_body L cfg r hb.2 rest head stack hq
    simp only [Body.items, List.cons_append, h, h2, pre_pre, Body.acts]
  | .eval c r =>
    simp only [Body.plain, Bool.and_eq_true] at hb
    have h2 := res_body L cfg r hb.2 rest head stack hq
    have h1 := res_code L cfg c hb.1 (.closeEval :: r.items ++ rest) ⟨false, false, true⟩
      (head :: stack) rfl rfl
    simp only [Body.items, List.cons_append, List.append_assoc, Body.acts] at h1 ⊢
    cases hs : c.single with
    | some s =>
      obtain ⟨t, rfl, rfl⟩ := single_eq hs
      simp only [Code.items, List.cons_append, List.nil_append, res, List.length_cons]
      rw [resolve_single L cfg _ _ head stack hq,
        resolve_fuel L cfg _ (r.items ++ rest).length _ _ _ (by omega) (Nat.le_refl _)]
      have h2' : resolve L cfg (r.items ++ rest).length false (head :: stack) (r.items ++ rest) =
        pre (r.acts L cfg) (resolve L cfg rest.length false (head :: stack) rest) := h2
      rw [h2', pre_pre]
      rfl
    | none =>
      have hopen : res L cfg false (head :: stack)
          (.openEval :: (c.items ++ (.closeEval :: (r.items ++ rest)))) =
          pre (texts L.startEval) (res L cfg false (⟨false, false, true⟩ :: head :: stack)
            (c.items ++ (.closeEval :: (r.items ++ rest)))) := by
        simp only [res, List.length_cons, resolve, hq, if_true]
        split
        · rename_i s r' hh
          have := (lookahead c hb.1 _ _ _ hh).1
          simp [this, Code.single] at hs
        · rfl
      have hclose : res L cfg false (⟨false, false, true⟩ :: head :: stack)
          (.closeEval :: (r.items ++ rest)) =
          pre (texts L.endEval) (res L cfg false (head :: stack) (r.items ++ rest)) := by
        simp only [res, List.length_cons, resolve]
        rfl
      rw [hopen, h1, hclose, h2, pre_pre, pre_pre, pre_pre]
      simp [texts]
  | .inner is r =>
    simp only [Body.plain, Bool.and_eq_true] at hb
    have h2 := res_body L cfg r hb.2 rest head stack hq
    have h1 := res_plain L cfg is (by simpa using hb.1) (.closeQuote :: (r.items ++ rest)) true
      Frame.default [] rfl
    have hc : res L cfg true [Frame.default] (.closeQuote :: (r.items ++ rest)) =
        ([], some (r.items ++ rest)) := by
      simp only [res, List.length_cons, resolve]
      rfl
    rw [hc] at h1
    have h1' : resolve L cfg (is ++ Item.closeQuote :: (r.items ++ rest)).length true
        [Frame.default] (is ++ .closeQuote :: (r.items ++ rest)) =
        pre (is.flatMap (plainActs L.langItem)) ([], some (r.items ++ rest)) := h1
    simp only [Body.items, List.cons_append, List.append_assoc, Body.acts]
    simp only [res, List.length_cons, resolve, hq, h1', pre, Bool.not_true, Bool.false_eq_true,
      if_false, Bool.not_false, if_true]
    rw [resolve_fuel L cfg _ (r.items ++ rest).length _ _ _ (by simp; omega) (Nat.le_refl _)]
    have h2' : resolve L cfg (r.items ++ rest).length false (head :: stack) (r.items ++ rest) =
      pre (r.acts L cfg) (resolve L cfg rest.length false (head :: stack) rest) := h2
    rw [h2']
    simp [pre, texts, renderActs_eq]
end

theorem resolveItems_code (L : Lang ι) (cfg : Config) (c : Code ι) (hc : c.plain = true) :
    resolveItems L cfg c.items = (c.acts L cfg, some ()) := by
  have h := res_code L cfg c hc [] Frame.default [] rfl rfl
  rw [List.append_nil] at h
  have h' : resolve L cfg c.items.length false [Frame.default] c.items =
    pre (c.acts L cfg) (res L cfg false [Frame.default] []) := h
  simp only [resolveItems, h']
  simp [res, resolve, pre]

/-! ## Acceptance -/

/-- A frame as the recogniser sees it. -/
def Frame.m (f : Frame) : MFrame := ⟨f.inQuote, f.endOnEval⟩

/-- Run the recogniser. -/
def runM (s : MState) (items : List (Item ι)) : Bool := (items.foldlM markStep s).isSome

theorem runM_cons (s : MState) (i : Item ι) (r : List (Item ι)) :
    runM s (i :: r) = match markStep s i with | some s' => runM s' r | none => false := by
  simp only [runM, List.foldlM_cons]
  cases h : markStep s i <;> rfl

/-- Frames of a run: below the top, the bottom frame is never an evaluation. -/
def bottomOk : List Frame → Bool
  | [] => false
  | [f] => !f.endOnEval
  | _ :: fs => bottomOk fs

theorem bottomOk_cons {f : Frame} {fs : List Frame} (h : bottomOk (f :: fs) = true)
    (hf : f.endOnEval = true) : bottomOk fs = true := by
  cases fs with
  | nil => simp [bottomOk, hf] at h
  | cons g gs => exact h

theorem bottomOk_push {f : Frame} {fs : List Frame} (h : bottomOk fs = true) :
    bottomOk (f :: fs) = true := by
  cases fs with
  | nil => simp [bottomOk] at h
  | cons g gs => exact h

theorem bottomOk_set {f g : Frame} {fs : List Frame} (h : bottomOk (f :: fs) = true)
    (he : g.endOnEval = f.endOnEval) : bottomOk (g :: fs) = true := by
  cases fs with
  | nil => simpa [bottomOk, he] using h
  | cons g gs => exact h

theorem runM_resolve (L : Lang ι) (cfg : Config) (fuel : Nat) (e : Bool) (stack : List Frame)
    (items : List (Item ι)) (lower : MState) (hf : items.length ≤ fuel)
    (hb : bottomOk stack = true) (he : e = !lower.isEmpty) :
    runM (stack.map Frame.m :: lower) items =
      match (resolve L cfg fuel e stack items).2 with
      | none => false
      | some r => if e then runM lower r else true := by
  induction fuel generalizing e stack items lower with
  | zero =>
    have : items = [] := by simpa using hf
    subst this
    cases e <;> simp [runM, resolve]
  | succ fuel ih =>
    cases items with
    | nil => cases e <;> simp [runM, resolve]
    | cons i rest =>
      simp only [List.length_cons] at hf
      cases stack with
      | nil => simp [bottomOk] at hb
      | cons head stack' =>
        simp only [resolve]
        have step := ih e (head :: stack') rest lower (by omega) hb he
        rw [runM_cons]
        cases i with
        | openQuote ev =>
          simp only [List.map_cons, markStep, Frame.m]
          cases hq : head.inQuote with
          | false =>
            have := ih e ({ head with hasEval := ev, inQuote := true } :: stack') rest lower
              (by omega) (bottomOk_set hb rfl) he
            simpa [Frame.m] using this
          | true =>
            cases ev with
            | true => simp
            | false =>
              have h1 := ih true [Frame.default] rest ((head :: stack').map Frame.m :: lower)
                (by omega) rfl rfl
              simp only [List.map_cons, List.map_nil, Frame.m, Frame.default, hq] at h1
              simp only [Bool.not_true, Bool.false_eq_true, if_false, Bool.not_false, if_true, h1]
              simp only [Frame.default]
              cases hr : (resolve L cfg fuel true [⟨false, false, false⟩] rest).2 with
              | none => rfl
              | some rest' =>
                have hl := resolve_length _ _ _ _ _ _ _ hr
                have h2 := ih e (head :: stack') rest' lower (by omega) hb he
                simpa [Frame.m, hq] using h2
        | closeQuote =>
          cases lower with
          | nil =>
            simp only [List.isEmpty_nil, Bool.not_true] at he
            subst he
            simp only [List.map_cons, markStep, Frame.m]
            cases hq : head.inQuote with
            | false => simp
            | true =>
              have := ih false ({ head with inQuote := false, hasEval := false } :: stack') rest []
                (by omega) (bottomOk_set hb rfl) rfl
              simpa [Frame.m] using this
          | cons l ls =>
            simp only [List.isEmpty_cons, Bool.not_false] at he
            subst he
            simp [markStep]
        | openEval =>
          simp only [List.map_cons, markStep, Frame.m]
          cases hq : head.inQuote with
          | false => simp
          | true =>
            simp only [if_true]
            have h1 := ih e (⟨false, false, true⟩ :: head :: stack') rest lower (by omega)
              (bottomOk_push hb) he
            simp only [List.map_cons, Frame.m, hq] at h1
            rcases rest with _ | ⟨i1, _ | ⟨i2, rest'⟩⟩
            · exact h1
            · cases i1 <;> exact h1
            · cases i1 with
              | literal s =>
                cases i2 with
                | closeEval =>
                  simp only [List.length_cons] at hf
                  have h2 := ih e (head :: stack') rest' lower (by omega) hb he
                  simp only [List.map_cons, Frame.m, hq] at h2
                  rw [runM_cons, show markStep ((⟨false, true⟩ :: ⟨true, head.endOnEval⟩ ::
                    stack'.map Frame.m) :: lower) (Item.literal s : Item ι) =
                    some ((⟨false, true⟩ :: ⟨true, head.endOnEval⟩ :: stack'.map Frame.m) :: lower)
                    from rfl]
                  simp only
                  rw [runM_cons]
                  exact h2
                | _ => exact h1
              | _ => exact h1
        | closeEval =>
          simp only [List.map_cons, markStep, Frame.m]
          cases hev : head.endOnEval with
          | false => simp
          | true =>
            have h1 := ih e stack' rest lower (by omega) (bottomOk_cons hb hev) he
            simpa using h1
        | indentation n =>
          simp only [List.map_cons, markStep] at step ⊢
          rw [step]
          by_cases hn : n = 0
          · rw [if_pos hn]
          · rw [if_neg hn]; rfl
        | _ => simpa [List.map_cons, markStep, pre] using step

theorem marksOk_eq (L : Lang ι) (cfg : Config) (items : List (Item ι)) :
    marksOk items = (resolveItems L cfg items).2.isSome := by
  have := runM_resolve L cfg items.length false [Frame.default] items [] (Nat.le_refl _) rfl rfl
  simp only [List.map_cons, List.map_nil, Frame.m, Frame.default] at this
  simp only [marksOk, runM] at this ⊢
  rw [this]
  simp only [resolveItems, Frame.default]
  cases (resolve L cfg items.length false [⟨false, false, false⟩] items).2 <;> rfl

end Genco
