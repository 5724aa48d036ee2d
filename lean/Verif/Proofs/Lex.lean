import Verif.Model.Lex

/-!
# Generated statements by computation

`same` compares the statements generated for an invocation with statements over code, by
computation; if it succeeds, both run the same way.
-/

set_option autoImplicit false

namespace Genco.Macro

variable {ι Env : Type}

/-- Equality of the calls macros generate. -/
def sameCall : Call ι → Call ι → Bool
  | .append (.literal (.static a)), .append (.literal (.static b)) => a == b
  | .append (.openQuote a), .append (.openQuote b) => a == b
  | .append .closeQuote, .append .closeQuote => true
  | .append .openEval, .append .openEval => true
  | .append .closeEval, .append .closeEval => true
  | .space, .space => true
  | .push, .push => true
  | .line, .line => true
  | .indent, .indent => true
  | .unindent, .unindent => true
  | _, _ => false

theorem sameCall_eq {a b : Call ι} (h : sameCall a b = true) : a = b := by
  unfold sameCall at h
  split at h <;> simp_all

mutual
def same : Stmt ι (List TT) → Stmt ι Code → Bool
  | .call a, .call b => sameCall a b
  | .value e, .value f => wordsAll e == f
  | .scope a e, .scope b f => a == b && wordsAll e == f
  | .forIn p e b, .forIn p' e' b' => wordsAll p == p' && wordsAll e == e' && sameAll b b'
  | .joinIn p e s b, .joinIn p' e' s' b' =>
    wordsAll p == p' && wordsAll e == e' && sameAll s s' && sameAll b b'
  | .ifThen c t, .ifThen c' t' => wordsAll c == c' && sameAll t t'
  | .ifElse c t e, .ifElse c' t' e' => wordsAll c == c' && sameAll t t' && sameAll e e'
  | .select e as, .select e' as' => wordsAll e == e' && sameArms as as'
  | .bind p e, .bind p' e' => wordsAll p == p' && wordsAll e == e'
  | _, _ => false
def sameAll : List (Stmt ι (List TT)) → List (Stmt ι Code) → Bool
  | [], [] => true
  | a :: r, b :: s => same a b && sameAll r s
  | _, _ => false
def sameArm : List TT × Option (List TT) × List (Stmt ι (List TT)) → Code × Option Code × List (Stmt ι Code) → Bool
  | (p, g, b), (p', g', b') => wordsAll p == p' && g.map wordsAll == g' && sameAll b b'
def sameArms : List (List TT × Option (List TT) × List (Stmt ι (List TT))) →
    List (Code × Option Code × List (Stmt ι Code)) → Bool
  | [], [] => true
  | a :: r, b :: s => sameArm a b && sameArms r s
  | _, _ => false
end

variable (K : Host ι Code Env)

mutual
theorem leave_same : ∀ (a : List (Stmt ι (List TT))) (b : List (Stmt ι Code)) (ρ : Env), sameAll a b = true →
    leave K.anywhere ρ a = leave K ρ b
  | [], [], _, _ => rfl
  | a :: r, b :: s, ρ, h => by
    rw [sameAll, Bool.and_eq_true] at h
    obtain ⟨h1, h2⟩ := h
    cases a <;> cases b <;> simp only [same, Bool.and_eq_true, beq_iff_eq, Bool.false_eq_true] at h1 <;>
      first
      | exact leave_same r s ρ h2
      | (obtain ⟨rfl, rfl⟩ := h1
         exact leave_same r s _ h2)
  | [], _ :: _, _, h => by simp [sameAll] at h
  | _ :: _, [], _, h => by simp [sameAll] at h
end

mutual
theorem run_same : ∀ (a : Stmt ι (List TT)) (b : Stmt ι Code) (ρ : Env), same a b = true →
    runStmt K.anywhere ρ a = runStmt K ρ b
  | .call _, b, ρ, h => by
    cases b <;> simp only [same, Bool.false_eq_true] at h
    rw [sameCall_eq h]; rfl
  | .value _, b, ρ, h => by
    cases b <;> simp only [same, Bool.false_eq_true, beq_iff_eq] at h
    subst h; rfl
  | .scope _ _, b, ρ, h => by
    cases b <;> simp only [same, Bool.false_eq_true, beq_iff_eq, Bool.and_eq_true] at h
    obtain ⟨rfl, rfl⟩ := h; rfl
  | .forIn _ _ body, b, ρ, h => by
    cases b with
    | forIn p e b' =>
      simp only [same, beq_iff_eq, Bool.and_eq_true] at h
      obtain ⟨⟨rfl, rfl⟩, h⟩ := h
      simp only [runStmt, run_sameAll body b' _ h]; rfl
    | _ => simp [same] at h
  | .joinIn _ _ sep body, b, ρ, h => by
    cases b with
    | joinIn p e s' b' =>
      simp only [same, beq_iff_eq, Bool.and_eq_true] at h
      obtain ⟨⟨⟨rfl, rfl⟩, h1⟩, h⟩ := h
      simp only [runStmt, run_sameAll body b' _ h, run_sameAll sep s' _ h1, leave_same K body b' _ h]; rfl
    | _ => simp [same] at h
  | .ifThen _ t, b, ρ, h => by
    cases b with
    | ifThen c t' =>
      simp only [same, beq_iff_eq, Bool.and_eq_true] at h
      obtain ⟨rfl, h⟩ := h
      simp only [runStmt, run_sameAll t t' _ h]; rfl
    | _ => simp [same] at h
  | .ifElse _ t e, b, ρ, h => by
    cases b with
    | ifElse c t' e' =>
      simp only [same, beq_iff_eq, Bool.and_eq_true] at h
      obtain ⟨⟨rfl, h⟩, h'⟩ := h
      simp only [runStmt, run_sameAll t t' _ h, run_sameAll e e' _ h']; rfl
    | _ => simp [same] at h
  | .select _ as, b, ρ, h => by
    cases b with
    | select e as' =>
      simp only [same, beq_iff_eq, Bool.and_eq_true] at h
      obtain ⟨rfl, h⟩ := h
      simp only [runStmt, run_sameArms as as' _ _ h]
    | _ => simp [same] at h
  | .bind _ _, b, ρ, h => by
    cases b <;> simp only [same, Bool.false_eq_true, beq_iff_eq, Bool.and_eq_true] at h
    obtain ⟨rfl, rfl⟩ := h; rfl
theorem run_sameAll : ∀ (a : List (Stmt ι (List TT))) (b : List (Stmt ι Code)) (ρ : Env), sameAll a b = true →
    runBlock K.anywhere ρ a = runBlock K ρ b
  | [], [], _, _ => rfl
  | a :: r, b :: s, ρ, h => by
    rw [sameAll, Bool.and_eq_true] at h
    rw [runBlock, runBlock, run_same a b ρ h.1, run_sameAll r s _ h.2]
  | [], _ :: _, _, h => by simp [sameAll] at h
  | _ :: _, [], _, h => by simp [sameAll] at h
theorem run_sameArms : ∀ (as : List (List TT × Option (List TT) × List (Stmt ι (List TT))))
    (bs : List (Code × Option Code × List (Stmt ι Code))) (ρ : Env) (e : List TT), sameArms as bs = true →
    runArms K.anywhere ρ e as = runArms K ρ (wordsAll e) bs
  | [], [], _, _, _ => rfl
  | a :: r, b :: s, ρ, e, h => by
    rw [sameArms, Bool.and_eq_true] at h
    rw [runArms, runArms, run_sameArms r s ρ e h.2]
    have h1 := h.1
    have hp : K.anywhere.pick ρ e a.1 a.2.1 = K.pick ρ (wordsAll e) b.1 b.2.1 := by
      obtain ⟨p, g, bl⟩ := a
      obtain ⟨p', g', bl'⟩ := b
      simp only [sameArm, beq_iff_eq, Bool.and_eq_true] at h1
      obtain ⟨⟨rfl, rfl⟩, -⟩ := h1
      rfl
    rw [hp]
    cases K.pick ρ (wordsAll e) b.1 b.2.1 with
    | none => rfl
    | some ρ' => exact run_sameArm a b ρ' h1
  | [], _ :: _, _, _, h => by simp [sameArms] at h
  | _ :: _, [], _, _, h => by simp [sameArms] at h
theorem run_sameArm : ∀ (a : List TT × Option (List TT) × List (Stmt ι (List TT)))
    (b : Code × Option Code × List (Stmt ι Code)) (ρ : Env), sameArm a b = true →
    runArm K.anywhere ρ a = runArm K ρ b
  | (_, _, bl), (_, _, bl'), ρ, h => by
    simp only [sameArm, beq_iff_eq, Bool.and_eq_true] at h
    rw [runArm, runArm, run_sameAll bl bl' ρ h.2]
end

/-- The macro generates these statements. -/
def Invocation.checkIn (C : Compiler) (i : Invocation) (ss : List (Stmt ι Code)) : Bool :=
  (i.quoteIn (ι := ι) C).any (fun a => sameAll a ss)

/-- The macro generates these statements. -/
def Invocation.check (C : Compiler) (i : Invocation) (ss : List (Stmt ι Code)) : Bool :=
  (i.quote (ι := ι) C).any (fun a => sameAll a ss)

theorem runIn_eq {C : Compiler} {i : Invocation} {ss : List (Stmt ι Code)} (h : i.checkIn C ss = true)
    (ρ : Env) (t : Tokens ι) : i.runIn C K ρ t = some ((runBlock K ρ ss).foldl Call.run t) := by
  unfold Invocation.checkIn at h
  unfold Invocation.runIn
  cases e : i.quoteIn (ι := ι) C with
  | none => rw [e] at h; simp at h
  | some a =>
    rw [e] at h
    rw [Option.map_some, run_sameAll K a ss ρ (by simpa using h)]

theorem make_eq {C : Compiler} {i : Invocation} {ss : List (Stmt ι Code)} (h : i.check C ss = true)
    (ρ : Env) : i.make C K ρ = some (history (runBlock K ρ ss)) := by
  unfold Invocation.check at h
  unfold Invocation.make
  cases e : i.quote (ι := ι) C with
  | none => rw [e] at h; simp at h
  | some a =>
    rw [e] at h
    rw [Option.map_some, run_sameAll K a ss ρ (by simpa using h)]

end Genco.Macro
