import Verif.Proofs.Macro

/-!
# Empty constant text
-/

set_option autoImplicit false

namespace Genco.Macro

open Spec Spec.MacroFile

variable {ι E Env : Type}

section

variable (H : Host ι E Env)

/-- The statements never append empty constant text. -/
def Full (ss : List (Stmt ι E)) : Prop := ∀ ρ, ∀ c ∈ runBlock H ρ ss, ¬ EmptyCall c

theorem full_nil : Full H [] := by intro ρ c hc; cases hc

variable {H}

theorem Full.append {a b : List (Stmt ι E)} (ha : Full H a) (hb : Full H b) : Full H (a ++ b) := by
  intro ρ c hc
  rw [runBlock_append] at hc
  rcases List.mem_append.1 hc with hc | hc
  · exact ha ρ c hc
  · exact hb _ c hc

theorem full_one {s : Stmt ι E} (h : ∀ ρ, ∀ c ∈ (runStmt H ρ s).2, ¬ EmptyCall c) : Full H [s] := by
  intro ρ c hc
  rw [runBlock, runBlock, List.append_nil] at hc
  exact h ρ c hc

theorem full_call {c : Call ι} (h : ¬ EmptyCall c) : Full H [.call c] := by
  refine full_one fun ρ d hd => ?_
  rw [runStmt] at hd
  cases List.mem_singleton.1 hd
  exact h

theorem full_lit {s : Str} (h : s ≠ []) : Full H [.call (.append (.literal (.static s)))] :=
  full_call (fun e => h (by cases e; rfl))

theorem full_calls {cs : List (Call ι)} (h : ∀ c ∈ cs, ¬ EmptyCall c) : Full H (cs.map .call) := by
  induction cs with
  | nil => exact full_nil H
  | cons c cs ih =>
    exact (full_call (h c (by simp))).append (ih (fun d hd => h d (by simp [hd])))

/-- A property of statements kept by all that the encoder does between pieces. -/
structure Keeps (P : List (Stmt ι E) → Prop) : Prop where
  nil : P []
  append : ∀ {a b}, P a → P b → P (a ++ b)
  lit : ∀ s : Str, s ≠ [] → P [.call (.append (.literal (.static s)))]
  ws : ∀ w : WsCall, P [.call w.call]

theorem keeps_full : Keeps (Full H) where
  nil := full_nil H
  append := Full.append
  lit _ h := full_lit h
  ws w := full_call (by cases w <;> exact fun e => by cases e)

section

variable {P : List (Stmt ι E) → Prop} (k : Keeps P)

include k

theorem keeps_replicate (n : Nat) (w : WsCall) : P (List.replicate n (.call w.call)) := by
  induction n with
  | zero => exact k.nil
  | succ n ih => exact k.append (k.ws w) ih

theorem full_flush {e : Enc ι E} (h : P e.output) : P e.flush.output := by
  unfold Enc.flush
  split
  · exact h
  · rename_i hb
    exact k.append h (k.lit _ hb)

theorem full_unindents (to : Nat) (line : Bool) (l r : List Nat) (out : List (Stmt ι E))
    (h : Enc.unindents to line l = .ok (r, out)) : P out := by
  induction l generalizing r out with
  | nil => cases h; exact k.nil
  | cons x l ih =>
    have hc : P (.call .unindent :: (if line then [.call .line] else [])) := by
      cases line
      · exact k.ws .unindent
      · exact k.append (k.ws .unindent) (k.ws .line)
    rw [Enc.unindents] at h
    split at h
    · cases hu : Enc.unindents (ι := ι) (E := E) to line l with
      | error x => rw [hu] at h; cases h
      | ok o =>
        rw [hu] at h
        cases h
        exact k.append hc (ih _ _ hu)
    · split at h
      · cases h; exact hc
      · cases h

theorem full_tokenize {e e' : Enc ι E} {a b : Pos} (h : P e.output)
    (ht : e.tokenizeWhitespace a b = .ok e') : P e'.output := by
  have f1 : P [Stmt.call (ι := ι) (E := E) .space] := k.ws .space
  have f2 : P [Stmt.call (ι := ι) (E := E) .push] := k.ws .push
  have f3 : P [Stmt.call (ι := ι) (E := E) .line] := k.ws .line
  have f4 : P [Stmt.call (ι := ι) (E := E) .indent] := k.ws .indent
  have fl := full_flush k h
  unfold Enc.tokenizeWhitespace at ht
  split at ht
  · cases ht; exact h
  split at ht
  · split at ht
    · cases ht; exact k.append fl f1
    · cases ht; exact h
  dsimp only at ht
  split at ht
  · cases ht
  split at ht
  · cases ht; exact fl
  · split at ht
    · cases ht
      refine k.append fl (k.append (a := [.call .indent]) f4 ?_)
      show P (if _ then _ else _)
      split
      · exact f3
      · exact k.nil
    · split at ht
      · rename_i c _ _ _
        revert ht
        generalize hu : Enc.unindents (ι := ι) (E := E) b.column _ _ = u
        intro ht
        cases u with
        | error x => cases ht
        | ok o =>
          cases ht
          exact k.append fl (full_unindents k _ _ _ _ _ hu)
      · split at ht
        · cases ht; exact k.append fl f3
        · cases ht; exact k.append fl f2

omit k in
theorem origin_output (e : Enc ι E) : e.origin.1.output = e.output := by
  obtain ⟨ss, se, ib, o, l, lc, i, r⟩ := e
  cases ss <;> cases l <;> cases lc <;> rfl

omit k in
/-- What is appended for a piece. -/
def FullAst (P : List (Stmt ι E) → Prop) (a : Ast ι E) : Prop := ∀ e : Enc ι E, P e.output → P (e.encodeAst a).output

theorem full_encode {e e' : Enc ι E} {cur : Cur} {a : Ast ι E} (h : P e.output) (ha : FullAst P a)
    (he : e.encode cur a = .ok e') : P e'.output := by
  unfold Enc.encode Enc.step at he
  have ho := origin_output e
  cases hr : e.origin with
  | mk e1 o =>
    rw [hr] at he ho
    dsimp only at ho
    cases o with
    | none =>
      cases he
      exact ha _ (by show P e1.output; rw [ho]; exact h)
    | some p =>
      dsimp only at he
      cases ht : e1.tokenizeWhitespace p cur.start with
      | error x => rw [ht] at he; cases he
      | ok e2 =>
        rw [ht] at he
        cases he
        refine ha _ ?_
        show P e2.output
        exact full_tokenize k (e := e1) (by rw [ho]; exact h) ht

theorem full_into {e : Enc ι E} {r : Bool} {ss : List (Stmt ι E)} (h : P e.output)
    (he : e.intoOutput = .ok (r, ss)) : P ss := by
  have fin : ∀ e1 : Enc ι E, P e1.output →
      P (e1.flush.output ++ List.replicate e1.flush.indents.length (.call .unindent)) := by
    intro e1 h1
    exact k.append (full_flush k h1) (keeps_replicate k _ .unindent)
  unfold Enc.intoOutput at he
  cases hs : e.spanEnd with
  | none => rw [hs] at he; cases he; exact fin _ h
  | some to =>
    rw [hs] at he
    dsimp only at he
    rw [origin_spanEnd] at he
    have ho := origin_output e
    cases hr : e.origin with
    | mk e1 o =>
      rw [hr] at he ho
      dsimp only at ho
      cases o with
      | none => cases he; exact fin _ (by show P e1.output; rw [ho]; exact h)
      | some p =>
        dsimp only at he
        cases ht : Enc.tokenizeWhitespace { e1 with spanEnd := none } p to with
        | error x => rw [ht] at he; cases he
        | ok e2 =>
          rw [ht] at he
          cases he
          exact fin _ (full_tokenize k (e := { e1 with spanEnd := none }) (by show P e1.output; rw [ho]; exact h) ht)

theorem full_start (span : Option Cur) : P (startEnc (ι := ι) (E := E) span).output := by
  cases span <;> exact k.nil

end

theorem fullAst_extend {a : Ast ι E} {ss : List (Stmt ι E)} (h : ∀ e : Enc ι E, e.encodeAst a = e.flush.extend ss)
    (hs : Full H ss) : FullAst (Full H) a := by
  intro e he
  rw [h]
  exact (full_flush keeps_full he).append hs

theorem full_peek {body sep : Env → List (Call ι)} (hb : ∀ ρ, ∀ c ∈ body ρ, ¬ EmptyCall c)
    (hs : ∀ ρ, ∀ c ∈ sep ρ, ¬ EmptyCall c) (l : List Env) : ∀ c ∈ peekLoop body sep l, ¬ EmptyCall c := by
  induction l with
  | nil => intro c hc; cases hc
  | cons x l ih =>
    intro c hc
    rw [peekLoop] at hc
    rcases List.mem_append.1 hc with hc | hc
    · rcases List.mem_append.1 hc with hc | hc
      · exact hb x c hc
      · split at hc
        · exact hs x c hc
        · cases hc
    · exact ih c hc

theorem full_arms {as : List (E × Option E × List (Stmt ι E))} (h : ∀ a ∈ as, Full H a.2.2) (ρ : Env) (e : E) :
    ∀ c ∈ runArms H ρ e as, ¬ EmptyCall c := by
  induction as with
  | nil => intro c hc; cases hc
  | cons a as ih =>
    obtain ⟨pat, guard, ss⟩ := a
    intro c hc
    rw [runArms] at hc
    cases hp : H.pick ρ e pat guard with
    | none => rw [hp] at hc; exact ih (fun b hb => h b (by simp [hb])) c hc
    | some ρ' => rw [hp] at hc; exact h (pat, guard, ss) (by simp) ρ' c hc

theorem full_strFlush {e e' : StrEnc ι E} {a : Pos} {b : Option Pos} (h : Full H e.stream)
    (he : e.flush a b = .ok e') : Full H e'.stream := by
  unfold StrEnc.flush at he
  cases hw : e.flushWhitespace a b with
  | error x => rw [hw] at he; cases he
  | ok e1 =>
    rw [hw] at he
    have h1 : e1.stream = e.stream := by
      unfold StrEnc.flushWhitespace at hw
      split at hw
      · cases hw; rfl
      · split at hw
        · cases hw
        · cases hw; rfl
    dsimp only [bind, Except.bind] at he
    split at he
    · cases he; rw [h1]; exact h
    · rename_i hb
      cases he
      show Full H (e1.stream ++ _)
      rw [h1]
      exact h.append (full_lit hb)

theorem full_encodeStr {e e' : StrEnc ι E} {s : Str} {a b : Pos} (h : Full H e.stream)
    (he : e.encodeStr s a b = .ok e') : Full H e'.stream := by
  unfold StrEnc.encodeStr at he
  cases hw : e.flushWhitespace a (some b) with
  | error x => rw [hw] at he; cases he
  | ok e1 =>
    rw [hw] at he
    cases he
    show Full H e1.stream
    unfold StrEnc.flushWhitespace at hw
    split at hw
    · cases hw; exact h
    · split at hw
      · cases hw
      · cases hw; exact h

theorem full_evalStream {e e' : StrEnc ι E} {ss : List (Stmt ι E)} {a b : Pos} (h : Full H e.stream)
    (hs : Full H ss) (he : e.evalStream ss a b = .ok e') : Full H e'.stream := by
  unfold StrEnc.evalStream at he
  cases hw : e.flush a (some b) with
  | error x => rw [hw] at he; cases he
  | ok e1 =>
    rw [hw] at he
    cases he
    show Full H (e1.stream ++ ([.call (.append .openEval)] ++ ss) ++ [.call (.append .closeEval)])
    exact ((full_strFlush h hw).append ((full_call (fun e => by cases e)).append hs)).append
      (full_call (fun e => by cases e))

theorem full_rawExpr {e e' : StrEnc ι E} {x : E} {a b : Pos} (hv : ∀ ρ, ∀ c ∈ H.value ρ x, ¬ EmptyCall c)
    (h : Full H e.stream) (he : e.rawExpr x a b = .ok e') : Full H e'.stream := by
  unfold StrEnc.rawExpr at he
  cases hw : e.flush a (some b) with
  | error x => rw [hw] at he; cases he
  | ok e1 =>
    rw [hw] at he
    cases he
    exact (full_strFlush h hw).append (full_one fun ρ c hc => hv ρ c (by rw [runStmt] at hc; exact hc))

theorem ok_bind {ε α β : Type} {x : Except ε α} {f : α → Except ε β} {y : β} (h : x.bind f = .ok y) :
    ∃ a, x = .ok a ∧ f a = .ok y := by
  cases x with
  | error e => cases h
  | ok a => exact ⟨a, rfl, h⟩

theorem or_false_iff {a b : Bool} : (a || b) = false ↔ a = false ∧ b = false := by
  cases a <;> cases b <;> simp

end

section

variable (H : Host ι E Env) (hv : ∀ ρ e, ∀ c ∈ H.value ρ e, ¬ EmptyCall c)
  (hs : ∀ ρ e, ∀ c ∈ H.scope ρ e, ¬ EmptyCall c)

include hv hs

mutual

theorem full_nodes : (ns : List (Node E)) → emptyText ns = false → ∀ e e' : Enc ι E, Full H e.output →
    nodes e ns = .ok e' → Full H e'.output
  | [], _, e, e', h, hn => by cases hn; exact h
  | n :: ns, hf, e, e', h, hn => by
    rw [emptyText, or_false_iff] at hf
    obtain ⟨e1, h1, h2⟩ := ok_bind (x := node e n) (f := fun e => nodes e ns) hn
    exact full_nodes ns hf.2 e1 e' (full_node n hf.1 e e1 h h1) h2

theorem full_block : (ns : List (Node E)) → emptyText ns = false → ∀ (span : Option Cur) (e : Enc ι E)
    (r : Bool) (ss : List (Stmt ι E)), nodes (startEnc span) ns = .ok e → e.intoOutput = .ok (r, ss) → Full H ss
  | ns, hf, span, e, r, ss, h1, h2 => full_into keeps_full (full_nodes ns hf _ e (full_start keeps_full span) h1) h2

theorem full_node : (n : Node E) → emptyTextNode n = false → ∀ e e' : Enc ι E, Full H e.output →
    node e n = .ok e' → Full H e'.output
  | .tree cur text, hf, e, e', h, hn => full_encode keeps_full h (by exact fun _ h => h) hn
  | .escape cur, hf, e, e', h, hn => full_encode keeps_full h (by exact fun _ h => h) hn
  | .str cur paren ps, hf, e, e', h, hn => by
    obtain ⟨⟨s, r⟩, h1, h2⟩ := ok_bind hn
    obtain ⟨s', h2, h3⟩ := ok_bind h2
    have f := full_strFlush (full_parts ps hf _ _ _ _ (full_nil H) h1) h2
    refine full_encode keeps_full (e := { e with requirements := e.requirements || r }) h ?_ h3
    intro e he
    have hfl : Full H (Enc.flush { e with requirements := e.requirements || s'.hasEval }).output := full_flush keeps_full he
    exact hfl.append ((Full.append (a := [.call (.append (.openQuote s'.hasEval))])
      (full_call (fun e => by cases e)) f).append (full_call (fun e => by cases e)))
  | .control cur k, hf, e, e', h, hn => by
    refine full_encode keeps_full h ?_ hn
    cases k <;> exact fullAst_extend (fun _ => rfl) (full_call (fun e => by cases e))
  | .quoted cur s, hf, e, e', h, hn => by
    refine full_encode keeps_full h (fullAst_extend (fun _ => rfl) ?_) hn
    refine Full.append (a := [.call (.append (.openQuote false))]) (full_call (fun e => by cases e))
      (Full.append (a := [.call (.append (.literal (.static s)))]) (full_lit ?_) (full_call (fun e => by cases e)))
    intro e; rw [e] at hf; cases hf
  | .literal cur s, hf, e, e', h, hn => full_encode keeps_full h (by exact fun _ h => h) hn
  | .eval cur x, hf, e, e', h, hn => by
    refine full_encode keeps_full h (fullAst_extend (fun _ => rfl) (full_one fun ρ c hc => ?_)) hn
    rw [runStmt] at hc; exact hv ρ x c hc
  | .scope cur bound content, hf, e, e', h, hn => by
    refine full_encode keeps_full h ?_ hn
    have f : Full H [Stmt.scope (ι := ι) bound content] := by
      refine full_one fun ρ c hc => ?_
      rw [runStmt] at hc
      cases bound with
      | true => exact hs ρ content c hc
      | false => cases hc
    cases bound with
    | true => exact fullAst_extend (fun _ => rfl) f
    | false => exact fun e he => he.append f
  | .loop cur pat iter body, hf, e, e', h, hn => by
    obtain ⟨e1, h1, h2⟩ := ok_bind hn
    obtain ⟨⟨r, ss⟩, h2, h3⟩ := ok_bind h2
    have f := full_block body hf none e1 r ss h1 h2
    refine full_encode keeps_full (e := { e with requirements := e.requirements || r }) h
      (fullAst_extend (fun _ => rfl) (full_one fun ρ c hc => ?_)) h3
    rw [runStmt] at hc
    obtain ⟨ρ', -, hc⟩ := List.mem_flatMap.1 hc
    exact f ρ' c hc
  | .joined cur pat iter paren sep body, hf, e, e', h, hn => by
    rw [emptyTextNode, or_false_iff] at hf
    obtain ⟨e1, h1, h2⟩ := ok_bind hn
    obtain ⟨⟨r, ss⟩, h2, h3⟩ := ok_bind h2
    obtain ⟨e2, h4, h5⟩ := ok_bind h3
    obtain ⟨⟨r', ss'⟩, h5, h6⟩ := ok_bind h5
    have f := full_block sep hf.1 _ e1 r ss h1 h2
    have f' := full_block body hf.2 none e2 r' ss' h4 h5
    refine full_encode keeps_full (e := { e with requirements := e.requirements || (r || r') }) h
      (fullAst_extend (fun _ => rfl) (full_one fun ρ c hc => ?_)) h6
    rw [runStmt] at hc
    exact full_peek (fun ρ => f' ρ) (fun ρ => f _) _ c hc
  | .ifThen cur c t, hf, e, e', h, hn => by
    obtain ⟨e1, h1, h2⟩ := ok_bind hn
    obtain ⟨⟨r, ss⟩, h2, h3⟩ := ok_bind h2
    have f := full_block t hf none e1 r ss h1 h2
    refine full_encode keeps_full (e := { e with requirements := e.requirements || r }) h
      (fullAst_extend (fun _ => rfl) (full_one fun ρ c hc => ?_)) h3
    rw [runStmt] at hc
    dsimp only at hc
    cases ht : H.test ρ _ with
    | some ρ' => rw [ht] at hc; exact f ρ' c hc
    | none => rw [ht] at hc; cases hc
  | .ifElse cur c t f, hf, e, e', h, hn => by
    rw [emptyTextNode, or_false_iff] at hf
    obtain ⟨e1, h1, h2⟩ := ok_bind hn
    obtain ⟨⟨r, ss⟩, h2, h3⟩ := ok_bind h2
    obtain ⟨e2, h4, h5⟩ := ok_bind h3
    obtain ⟨⟨r', ss'⟩, h5, h6⟩ := ok_bind h5
    have f1 := full_block t hf.1 none e1 r ss h1 h2
    have f2 := full_block f hf.2 none e2 r' ss' h4 h5
    refine full_encode keeps_full (e := { e with requirements := e.requirements || (r || r') }) h
      (fullAst_extend (fun _ => rfl) (full_one fun ρ c hc => ?_)) h6
    rw [runStmt] at hc
    dsimp only at hc
    cases ht : H.test ρ _ with
    | some ρ' => rw [ht] at hc; exact f1 ρ' c hc
    | none => rw [ht] at hc; exact f2 ρ c hc
  | .select cur x as, hf, e, e', h, hn => by
    obtain ⟨⟨r, out⟩, h1, h2⟩ := ok_bind hn
    have f := full_armsOf as hf r out h1
    refine full_encode keeps_full (e := { e with requirements := e.requirements || r }) h
      (fullAst_extend (fun _ => rfl) (full_one fun ρ c hc => ?_)) h2
    rw [runStmt] at hc
    exact full_arms f ρ x c hc
  | .bind cur pat x, hf, e, e', h, hn => by
    refine full_encode keeps_full h (fullAst_extend (fun _ => rfl) (full_one fun ρ c hc => ?_)) hn
    rw [runStmt] at hc; cases hc
  | .group cur d content, hf, e, e', h, hn => by
    obtain ⟨e1, h1, h2⟩ := ok_bind hn
    obtain ⟨e2, h2, h3⟩ := ok_bind h2
    exact full_encode keeps_full (full_nodes content hf e1 e2 (full_encode keeps_full h (by exact fun _ h => h) h1) h2) (by exact fun _ h => h) h3

theorem full_armsOf : (as : List (Arm E)) → emptyTextArms as = false → ∀ r out,
    arms (ι := ι) as = .ok (r, out) → ∀ a ∈ out, Full H a.2.2
  | [], _, r, out, ha, a, hm => by cases ha; cases hm
  | .mk pat guard paren body :: as, hf, r, out, ha, a, hm => by
    rw [emptyTextArms, or_false_iff] at hf
    obtain ⟨e1, h1, h2⟩ := ok_bind ha
    obtain ⟨⟨r1, ss⟩, h2', h3⟩ := ok_bind h2
    obtain ⟨⟨r2, out'⟩, h4, h5⟩ := ok_bind h3
    cases h5
    rcases List.mem_cons.1 hm with rfl | hm
    · exact full_block body hf.1 paren e1 r1 ss h1 h2'
    · exact full_armsOf as hf.2 r2 out' h4 a hm

theorem full_parts : (ps : List (Part E)) → emptyTextParts ps = false → ∀ (e e' : StrEnc ι E) (q r : Bool),
    Full H e.stream → parts e q ps = .ok (e', r) → Full H e'.stream
  | [], _, e, e', q, r, h, hp => by cases hp; exact h
  | .dollar cur :: ps, hf, e, e', q, r, h, hp => by
    rw [emptyTextParts, or_false_iff] at hf
    obtain ⟨e1, h1, h2⟩ := ok_bind hp
    exact full_parts ps hf.2 e1 e' q r (full_encodeStr h h1) h2
  | .constant cur s :: ps, hf, e, e', q, r, h, hp => by
    rw [emptyTextParts, or_false_iff] at hf
    obtain ⟨e1, h1, h2⟩ := ok_bind hp
    exact full_parts ps hf.2 e1 e' q r (full_encodeStr h h1) h2
  | .tt cur s :: ps, hf, e, e', q, r, h, hp => by
    rw [emptyTextParts, or_false_iff] at hf
    obtain ⟨e1, h1, h2⟩ := ok_bind hp
    exact full_parts ps hf.2 e1 e' q r (full_encodeStr h h1) h2
  | .raw cur x :: ps, hf, e, e', q, r, h, hp => by
    rw [emptyTextParts, or_false_iff] at hf
    obtain ⟨e1, h1, h2⟩ := ok_bind hp
    exact full_parts ps hf.2 e1 e' q r (full_rawExpr (fun ρ => hv ρ x) h h1) h2
  | .ident cur name :: ps, hf, e, e', q, r, h, hp => by
    rw [emptyTextParts, or_false_iff] at hf
    obtain ⟨e1, h1, h2⟩ := ok_bind hp
    refine full_parts ps hf.2 e1 e' q r (full_evalStream h (full_lit ?_) h1) h2
    intro e; rw [e] at hf; cases hf.1
  | .stream cur span content :: ps, hf, e, e', q, r, h, hp => by
    rw [emptyTextParts, or_false_iff] at hf
    obtain ⟨e1, h1, h2⟩ := ok_bind hp
    obtain ⟨⟨r1, ss⟩, h2, h3⟩ := ok_bind h2
    obtain ⟨e2, h3, h4⟩ := ok_bind h3
    have f := full_block content hf.1 (some span) e1 r1 ss h1 h2
    exact full_parts ps hf.2 e2 e' _ r (full_evalStream h f h3) h4

end

end

end Genco.Macro
