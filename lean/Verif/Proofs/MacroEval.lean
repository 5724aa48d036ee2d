import Verif.Proofs.MacroEmpty
import Verif.Spec.Entry

/-!
# Macros without interpolated strings
-/

set_option autoImplicit false

namespace Genco.Macro

open Spec Spec.MacroFile

variable {ι E Env : Type}

section

variable (H : Host ι E Env)

theorem noEval_item {i : Item ι} (h : evalItem i = false) : ¬ EvalCall (.append i) := by
  rintro ⟨j, hj, he⟩
  simp only [callItems, List.mem_singleton] at hj
  rw [hj, h] at he
  cases he

/-- The statements never make calls for interpolation. -/
def NoEval (ss : List (Stmt ι E)) : Prop := ∀ ρ, ∀ c ∈ runBlock H ρ ss, ¬ EvalCall c

theorem noEval_nil : NoEval H [] := by intro ρ c hc; cases hc

variable {H}

theorem NoEval.append {a b : List (Stmt ι E)} (ha : NoEval H a) (hb : NoEval H b) : NoEval H (a ++ b) := by
  intro ρ c hc
  rw [runBlock_append] at hc
  rcases List.mem_append.1 hc with hc | hc
  · exact ha ρ c hc
  · exact hb _ c hc

theorem noEval_one {s : Stmt ι E} (h : ∀ ρ, ∀ c ∈ (runStmt H ρ s).2, ¬ EvalCall c) : NoEval H [s] := by
  intro ρ c hc
  rw [runBlock, runBlock, List.append_nil] at hc
  exact h ρ c hc

theorem noEval_call {c : Call ι} (h : ¬ EvalCall c) : NoEval H [.call c] := by
  refine noEval_one fun ρ d hd => ?_
  rw [runStmt] at hd
  cases List.mem_singleton.1 hd
  exact h

theorem noEval_lit (s : Str) : NoEval H [.call (.append (.literal (.static s)))] :=
  noEval_call (noEval_item rfl)

theorem keeps_noEval : Keeps (NoEval H) where
  nil := noEval_nil H
  append := NoEval.append
  lit _ _ := noEval_call (noEval_item rfl)
  ws w := noEval_call (by rintro ⟨i, hi, he⟩; cases w <;> (simp only [WsCall.call, callItems, List.mem_singleton] at hi; subst hi; cases he))

theorem noEvalAst_extend {a : Ast ι E} {ss : List (Stmt ι E)} (h : ∀ e : Enc ι E, e.encodeAst a = e.flush.extend ss)
    (hs : NoEval H ss) : FullAst (NoEval H) a := by
  intro e he
  rw [h]
  exact (full_flush keeps_noEval he).append hs

theorem noEval_peek {body sep : Env → List (Call ι)} (hb : ∀ ρ, ∀ c ∈ body ρ, ¬ EvalCall c)
    (hs : ∀ ρ, ∀ c ∈ sep ρ, ¬ EvalCall c) (l : List Env) : ∀ c ∈ peekLoop body sep l, ¬ EvalCall c := by
  induction l with
  | nil => intro c hc; cases hc
  | cons x l ih =>
    intro c hc
    rw [peekLoop] at hc
    rcases List.mem_append.1 hc with hc | hc
    · rcases List.mem_append.1 hc with hc | hc
      · exact hb x c hc
      · split at hc
        · exact hs x c hc
        · cases hc
    · exact ih c hc

theorem noEval_arms {as : List (E × Option E × List (Stmt ι E))} (h : ∀ a ∈ as, NoEval H a.2.2) (ρ : Env) (e : E) :
    ∀ c ∈ runArms H ρ e as, ¬ EvalCall c := by
  induction as with
  | nil => intro c hc; cases hc
  | cons a as ih =>
    obtain ⟨pat, guard, ss⟩ := a
    intro c hc
    rw [runArms] at hc
    cases hp : H.pick ρ e pat guard with
    | none => rw [hp] at hc; exact ih (fun b hb => h b (by simp [hb])) c hc
    | some ρ' => rw [hp] at hc; exact h (pat, guard, ss) (by simp) ρ' c hc

/-- A string without interpolation. -/
def Constant (H : Host ι E Env) (e : StrEnc ι E) : Prop := NoEval H e.stream ∧ e.hasEval = false

theorem noEval_strFlush {e e' : StrEnc ι E} {a : Pos} {b : Option Pos} (h : Constant H e)
    (he : e.flush a b = .ok e') : Constant H e' := by
  unfold StrEnc.flush at he
  cases hw : e.flushWhitespace a b with
  | error x => rw [hw] at he; cases he
  | ok e1 =>
    rw [hw] at he
    have h1 : e1.stream = e.stream ∧ e1.hasEval = e.hasEval := by
      unfold StrEnc.flushWhitespace at hw
      split at hw
      · cases hw; exact ⟨rfl, rfl⟩
      · split at hw
        · cases hw
        · cases hw; exact ⟨rfl, rfl⟩
    dsimp only [bind, Except.bind] at he
    split at he
    · cases he
      exact ⟨by rw [h1.1]; exact h.1, by rw [h1.2]; exact h.2⟩
    · cases he
      refine ⟨?_, by show e1.hasEval = false; rw [h1.2]; exact h.2⟩
      show NoEval H (e1.stream ++ _)
      rw [h1.1]
      exact h.1.append (noEval_lit _)

theorem noEval_encodeStr {e e' : StrEnc ι E} {s : Str} {a b : Pos} (h : Constant H e)
    (he : e.encodeStr s a b = .ok e') : Constant H e' := by
  unfold StrEnc.encodeStr at he
  cases hw : e.flushWhitespace a (some b) with
  | error x => rw [hw] at he; cases he
  | ok e1 =>
    rw [hw] at he
    cases he
    show Constant H { e1 with buf := _ }
    unfold StrEnc.flushWhitespace at hw
    split at hw
    · cases hw; exact h
    · split at hw
      · cases hw
      · cases hw; exact h

theorem noEval_rawExpr {e e' : StrEnc ι E} {x : E} {a b : Pos} (hv : ∀ ρ, ∀ c ∈ H.value ρ x, ¬ EvalCall c)
    (h : Constant H e) (he : e.rawExpr x a b = .ok e') : Constant H e' := by
  unfold StrEnc.rawExpr at he
  cases hw : e.flush a (some b) with
  | error x => rw [hw] at he; cases he
  | ok e1 =>
    rw [hw] at he
    cases he
    have h1 := noEval_strFlush h hw
    exact ⟨h1.1.append (noEval_one fun ρ c hc => hv ρ c (by rw [runStmt] at hc; exact hc)), h1.2⟩

end

section

variable (H : Host ι E Env) (hv : ∀ ρ e, ∀ c ∈ H.value ρ e, ¬ EvalCall c)
  (hs : ∀ ρ e, ∀ c ∈ H.scope ρ e, ¬ EvalCall c)

include hv hs

mutual

theorem noEval_nodes : (ns : List (Node E)) → interpolated ns = false → ∀ e e' : Enc ι E, NoEval H e.output →
    nodes e ns = .ok e' → NoEval H e'.output
  | [], _, e, e', h, hn => by cases hn; exact h
  | n :: ns, hf, e, e', h, hn => by
    rw [interpolated, or_false_iff] at hf
    obtain ⟨e1, h1, h2⟩ := ok_bind (x := node e n) (f := fun e => nodes e ns) hn
    exact noEval_nodes ns hf.2 e1 e' (noEval_node n hf.1 e e1 h h1) h2

theorem noEval_block : (ns : List (Node E)) → interpolated ns = false → ∀ (span : Option Cur) (e : Enc ι E)
    (r : Bool) (ss : List (Stmt ι E)), nodes (startEnc span) ns = .ok e → e.intoOutput = .ok (r, ss) → NoEval H ss
  | ns, hf, span, e, r, ss, h1, h2 => full_into keeps_noEval (noEval_nodes ns hf _ e (full_start keeps_noEval span) h1) h2

theorem noEval_node : (n : Node E) → interpolatedNode n = false → ∀ e e' : Enc ι E, NoEval H e.output →
    node e n = .ok e' → NoEval H e'.output
  | .tree cur text, hf, e, e', h, hn => full_encode keeps_noEval h (by exact fun _ h => h) hn
  | .escape cur, hf, e, e', h, hn => full_encode keeps_noEval h (by exact fun _ h => h) hn
  | .str cur paren ps, hf, e, e', h, hn => by
    obtain ⟨⟨s, r⟩, h1, h2⟩ := ok_bind hn
    obtain ⟨s', h2, h3⟩ := ok_bind h2
    rw [interpolatedNode, or_false_iff] at hf
    have f := noEval_strFlush (noEval_parts ps hf.1 hf.2 _ _ _ _ ⟨noEval_nil H, rfl⟩ h1) h2
    refine full_encode keeps_noEval (e := { e with requirements := e.requirements || r }) h ?_ h3
    intro e he
    have hfl : NoEval H (Enc.flush { e with requirements := e.requirements || s'.hasEval }).output := full_flush keeps_noEval he
    exact hfl.append ((NoEval.append (a := [.call (.append (.openQuote s'.hasEval))])
      (noEval_call (by rw [f.2]; exact noEval_item rfl)) f.1).append (noEval_call (noEval_item rfl)))
  | .control cur k, hf, e, e', h, hn => by
    refine full_encode keeps_noEval h ?_ hn
    cases k <;> exact noEvalAst_extend (fun _ => rfl) (noEval_call (by rintro ⟨i, hi, he⟩; simp only [callItems, List.mem_singleton] at hi; subst hi; cases he))
  | .quoted cur s, hf, e, e', h, hn => by
    refine full_encode keeps_noEval h (noEvalAst_extend (fun _ => rfl) ?_) hn
    exact NoEval.append (a := [.call (.append (.openQuote false))]) (noEval_call (noEval_item rfl))
      (NoEval.append (a := [.call (.append (.literal (.static s)))]) (noEval_lit _) (noEval_call (noEval_item rfl)))
  | .literal cur s, hf, e, e', h, hn => full_encode keeps_noEval h (by exact fun _ h => h) hn
  | .eval cur x, hf, e, e', h, hn => by
    refine full_encode keeps_noEval h (noEvalAst_extend (fun _ => rfl) (noEval_one fun ρ c hc => ?_)) hn
    rw [runStmt] at hc; exact hv ρ x c hc
  | .scope cur bound content, hf, e, e', h, hn => by
    refine full_encode keeps_noEval h ?_ hn
    have f : NoEval H [Stmt.scope (ι := ι) bound content] := by
      refine noEval_one fun ρ c hc => ?_
      rw [runStmt] at hc
      cases bound with
      | true => exact hs ρ content c hc
      | false => cases hc
    cases bound with
    | true => exact noEvalAst_extend (fun _ => rfl) f
    | false => exact fun e he => he.append f
  | .loop cur pat iter body, hf, e, e', h, hn => by
    obtain ⟨e1, h1, h2⟩ := ok_bind hn
    obtain ⟨⟨r, ss⟩, h2, h3⟩ := ok_bind h2
    have f := noEval_block body hf none e1 r ss h1 h2
    refine full_encode keeps_noEval (e := { e with requirements := e.requirements || r }) h
      (noEvalAst_extend (fun _ => rfl) (noEval_one fun ρ c hc => ?_)) h3
    rw [runStmt] at hc
    obtain ⟨ρ', -, hc⟩ := List.mem_flatMap.1 hc
    exact f ρ' c hc
  | .joined cur pat iter paren sep body, hf, e, e', h, hn => by
    rw [interpolatedNode, or_false_iff] at hf
    obtain ⟨e1, h1, h2⟩ := ok_bind hn
    obtain ⟨⟨r, ss⟩, h2, h3⟩ := ok_bind h2
    obtain ⟨e2, h4, h5⟩ := ok_bind h3
    obtain ⟨⟨r', ss'⟩, h5, h6⟩ := ok_bind h5
    have f := noEval_block sep hf.1 _ e1 r ss h1 h2
    have f' := noEval_block body hf.2 none e2 r' ss' h4 h5
    refine full_encode keeps_noEval (e := { e with requirements := e.requirements || (r || r') }) h
      (noEvalAst_extend (fun _ => rfl) (noEval_one fun ρ c hc => ?_)) h6
    rw [runStmt] at hc
    exact noEval_peek (fun ρ => f' ρ) (fun ρ => f _) _ c hc
  | .ifThen cur c t, hf, e, e', h, hn => by
    obtain ⟨e1, h1, h2⟩ := ok_bind hn
    obtain ⟨⟨r, ss⟩, h2, h3⟩ := ok_bind h2
    have f := noEval_block t hf none e1 r ss h1 h2
    refine full_encode keeps_noEval (e := { e with requirements := e.requirements || r }) h
      (noEvalAst_extend (fun _ => rfl) (noEval_one fun ρ c hc => ?_)) h3
    rw [runStmt] at hc
    dsimp only at hc
    cases ht : H.test ρ _ with
    | some ρ' => rw [ht] at hc; exact f ρ' c hc
    | none => rw [ht] at hc; cases hc
  | .ifElse cur c t f, hf, e, e', h, hn => by
    rw [interpolatedNode, or_false_iff] at hf
    obtain ⟨e1, h1, h2⟩ := ok_bind hn
    obtain ⟨⟨r, ss⟩, h2, h3⟩ := ok_bind h2
    obtain ⟨e2, h4, h5⟩ := ok_bind h3
    obtain ⟨⟨r', ss'⟩, h5, h6⟩ := ok_bind h5
    have f1 := noEval_block t hf.1 none e1 r ss h1 h2
    have f2 := noEval_block f hf.2 none e2 r' ss' h4 h5
    refine full_encode keeps_noEval (e := { e with requirements := e.requirements || (r || r') }) h
      (noEvalAst_extend (fun _ => rfl) (noEval_one fun ρ c hc => ?_)) h6
    rw [runStmt] at hc
    dsimp only at hc
    cases ht : H.test ρ _ with
    | some ρ' => rw [ht] at hc; exact f1 ρ' c hc
    | none => rw [ht] at hc; exact f2 ρ c hc
  | .select cur x as, hf, e, e', h, hn => by
    obtain ⟨⟨r, out⟩, h1, h2⟩ := ok_bind hn
    have f := noEval_armsOf as hf r out h1
    refine full_encode keeps_noEval (e := { e with requirements := e.requirements || r }) h
      (noEvalAst_extend (fun _ => rfl) (noEval_one fun ρ c hc => ?_)) h2
    rw [runStmt] at hc
    exact noEval_arms f ρ x c hc
  | .bind cur pat x, hf, e, e', h, hn => by
    refine full_encode keeps_noEval h (noEvalAst_extend (fun _ => rfl) (noEval_one fun ρ c hc => ?_)) hn
    rw [runStmt] at hc; cases hc
  | .group cur d content, hf, e, e', h, hn => by
    obtain ⟨e1, h1, h2⟩ := ok_bind hn
    obtain ⟨e2, h2, h3⟩ := ok_bind h2
    exact full_encode keeps_noEval (noEval_nodes content hf e1 e2 (full_encode keeps_noEval h (by exact fun _ h => h) h1) h2) (by exact fun _ h => h) h3

theorem noEval_armsOf : (as : List (Arm E)) → interpolatedArms as = false → ∀ r out,
    arms (ι := ι) as = .ok (r, out) → ∀ a ∈ out, NoEval H a.2.2
  | [], _, r, out, ha, a, hm => by cases ha; cases hm
  | .mk pat guard paren body :: as, hf, r, out, ha, a, hm => by
    rw [interpolatedArms, or_false_iff] at hf
    obtain ⟨e1, h1, h2⟩ := ok_bind ha
    obtain ⟨⟨r1, ss⟩, h2', h3⟩ := ok_bind h2
    obtain ⟨⟨r2, out'⟩, h4, h5⟩ := ok_bind h3
    cases h5
    rcases List.mem_cons.1 hm with rfl | hm
    · exact noEval_block body hf.1 paren e1 r1 ss h1 h2'
    · exact noEval_armsOf as hf.2 r2 out' h4 a hm

theorem noEval_parts : (ps : List (Part E)) → ps.any isEval = false → interpolatedParts ps = false →
    ∀ (e e' : StrEnc ι E) (q r : Bool), Constant H e → parts e q ps = .ok (e', r) → Constant H e'
  | [], _, _, e, e', q, r, h, hp => by cases hp; exact h
  | .dollar cur :: ps, hi, hf, e, e', q, r, h, hp => by
    rw [List.any_cons, or_false_iff] at hi
    rw [interpolatedParts, or_false_iff] at hf
    obtain ⟨e1, h1, h2⟩ := ok_bind hp
    exact noEval_parts ps hi.2 hf.2 e1 e' q r (noEval_encodeStr h h1) h2
  | .constant cur s :: ps, hi, hf, e, e', q, r, h, hp => by
    rw [List.any_cons, or_false_iff] at hi
    rw [interpolatedParts, or_false_iff] at hf
    obtain ⟨e1, h1, h2⟩ := ok_bind hp
    exact noEval_parts ps hi.2 hf.2 e1 e' q r (noEval_encodeStr h h1) h2
  | .tt cur s :: ps, hi, hf, e, e', q, r, h, hp => by
    rw [List.any_cons, or_false_iff] at hi
    rw [interpolatedParts, or_false_iff] at hf
    obtain ⟨e1, h1, h2⟩ := ok_bind hp
    exact noEval_parts ps hi.2 hf.2 e1 e' q r (noEval_encodeStr h h1) h2
  | .raw cur x :: ps, hi, hf, e, e', q, r, h, hp => by
    rw [List.any_cons, or_false_iff] at hi
    rw [interpolatedParts, or_false_iff] at hf
    obtain ⟨e1, h1, h2⟩ := ok_bind hp
    exact noEval_parts ps hi.2 hf.2 e1 e' q r (noEval_rawExpr (fun ρ => hv ρ x) h h1) h2
  | .ident cur name :: ps, hi, hf, e, e', q, r, h, hp => by
    rw [List.any_cons, or_false_iff] at hi
    cases hi.1
  | .stream cur span content :: ps, hi, hf, e, e', q, r, h, hp => by
    rw [List.any_cons, or_false_iff] at hi
    cases hi.1

end

end

end Genco.Macro
