import Verif.Spec.Blame
import Verif.Proofs.Macro

/-!
# Where errors of macros come from
-/

set_option autoImplicit false

namespace Genco.Macro

open Spec Spec.MacroFile Spec.Blame

variable {ι E : Type}

/-! ## What placing depends on -/

/-- What the encoder knows about columns. -/
def Enc.cols (e : Enc ι E) : Option Pos × Option Nat × List Nat := (e.spanStart, e.lastStartColumn, e.indents)

theorem flush_cols (e : Enc ι E) : e.flush.cols = e.cols := by
  unfold Enc.flush
  split <;> rfl

theorem tokenize_cols (e e' : Enc ι E) (h : e.cols = e'.cols) (a b : Pos) :
    (e.tokenizeWhitespace a b).map Enc.cols = (e'.tokenizeWhitespace a b).map Enc.cols := by
  unfold Enc.tokenizeWhitespace
  by_cases h1 : a = b
  · rw [if_pos h1, if_pos h1]; exact congrArg Except.ok h
  rw [if_neg h1, if_neg h1]
  have hf : e.flush.cols = e'.flush.cols := by rw [flush_cols, flush_cols, h]
  by_cases h2 : a.line = b.line
  · rw [if_pos h2, if_pos h2]
    by_cases h3 : a.column < b.column
    · rw [if_pos h3, if_pos h3]; exact congrArg Except.ok hf
    · rw [if_neg h3, if_neg h3]; exact congrArg Except.ok h
  rw [if_neg h2, if_neg h2]
  dsimp only
  by_cases h3 : b.line < a.line
  · rw [if_pos h3, if_pos h3]
  rw [if_neg h3, if_neg h3]
  revert hf
  generalize e.flush = e
  generalize e'.flush = e'
  intro hf
  obtain ⟨ss, se, ib, o, l, lc, i, r⟩ := e
  obtain ⟨ss', se', ib', o', l', lc', i', r'⟩ := e'
  simp only [Enc.cols, Prod.mk.injEq] at hf
  obtain ⟨rfl, rfl, rfl⟩ := hf
  cases lc with
  | none => rfl
  | some c =>
    dsimp only
    by_cases h5 : c < b.column
    · rw [if_pos h5, if_pos h5]; rfl
    rw [if_neg h5, if_neg h5]
    by_cases h6 : c > b.column
    · rw [if_pos h6, if_pos h6]
      cases Enc.unindents (ι := ι) (E := E) b.column (decide (b.line - a.line > 1)) i <;> rfl
    rw [if_neg h6, if_neg h6]
    by_cases h7 : decide (b.line - a.line > 1) = true
    · rw [if_pos h7, if_pos h7]; rfl
    · rw [if_neg h7, if_neg h7]; rfl

/-- Both encoders place the next piece alike. -/
def PlacesAlike (e e' : Enc ι E) : Prop := e.origin.2 = e'.origin.2 ∧ e.origin.1.cols = e'.origin.1.cols

theorem PlacesAlike.refl (e : Enc ι E) : PlacesAlike e e := ⟨rfl, rfl⟩

theorem PlacesAlike.need {e e' : Enc ι E} (h : PlacesAlike e e') (r : Bool) : PlacesAlike (e.need r) e' := by
  unfold PlacesAlike
  rw [origin_need]
  exact h

theorem encodeAst_cols (e : Enc ι E) (a : Ast ι E) : (e.encodeAst a).cols = e.cols := by
  cases a with
  | control k => cases k <;> exact flush_cols e
  | scope b c => cases b <;> first | exact flush_cols e | rfl
  | loop p i j s => cases j <;> exact flush_cols e
  | condition c t f => cases f <;> exact flush_cols e
  | _ => first | rfl | exact flush_cols _

theorem flush_last (e : Enc ι E) : e.flush.last = e.last ∧ e.flush.spanEnd = e.spanEnd := by
  unfold Enc.flush
  split <;> exact ⟨rfl, rfl⟩

theorem encodeAst_last (e : Enc ι E) (a : Ast ι E) :
    (e.encodeAst a).last = e.last ∧ (e.encodeAst a).spanEnd = e.spanEnd := by
  cases a with
  | control k => cases k <;> exact flush_last e
  | scope b c => cases b <;> first | exact flush_last e | exact ⟨rfl, rfl⟩
  | loop p i j s => cases j <;> exact flush_last e
  | condition c t f => cases f <;> exact flush_last e
  | _ => first | exact ⟨rfl, rfl⟩ | exact flush_last _

theorem tokenize_end {e e1 : Enc ι E} {a b : Pos} (h : e.tokenizeWhitespace a b = .ok e1) :
    e1.spanEnd = e.spanEnd := by
  have hf := (flush_last e).2
  unfold Enc.tokenizeWhitespace at h
  split at h
  · cases h; rfl
  split at h
  · split at h
    · cases h; exact hf
    · cases h; rfl
  dsimp only at h
  split at h
  · cases h
  split at h
  · cases h; exact hf
  split at h
  · cases h; exact hf
  split at h
  · change Except.bind _ _ = _ at h
    revert h
    generalize Enc.unindents (ι := ι) (E := E) _ _ _ = u
    intro h
    cases u with
    | error x => cases h
    | ok o => cases h; exact hf
  split at h
  · cases h; exact hf
  · cases h; exact hf

theorem origin_end (e : Enc ι E) : e.origin.1.spanEnd = e.spanEnd := by
  unfold Enc.origin
  split
  · rfl
  split
  · split <;> rfl
  · rfl

theorem same_placed {e e' : Enc ι E} (h : e.cols = e'.cols) (hl : e.last = e'.last) : PlacesAlike e e' := by
  obtain ⟨ss, se, ib, o, l, lc, i, r⟩ := e
  obtain ⟨ss', se', ib', o', l', lc', i', r'⟩ := e'
  simp only [Enc.cols, Prod.mk.injEq] at h hl
  obtain ⟨rfl, rfl, rfl⟩ := h
  subst hl
  cases ss <;> cases l <;> cases lc <;> exact ⟨rfl, rfl⟩

/-- A piece is placed alike, whatever it is. -/
theorem encode_same {e e' : Enc ι E} (h : PlacesAlike e e') (cur : Cur) (a a' : Ast ι E) :
    (∃ x, e.encode cur a = .error x ∧ e'.encode cur a' = .error x) ∨
    ∃ e1 e1', e.encode cur a = .ok e1 ∧ e'.encode cur a' = .ok e1' ∧ PlacesAlike e1 e1' ∧ e1.spanEnd = e.spanEnd := by
  obtain ⟨h1, h2⟩ := h
  have hoe := origin_end e
  unfold Enc.encode Enc.step
  have done : ∀ f f' : Enc ι E, f.cols = f'.cols →
      PlacesAlike (({ f with last := some cur } : Enc ι E).encodeAst a) (({ f' with last := some cur } : Enc ι E).encodeAst a') := by
    intro f f' hf
    refine same_placed ?_ ?_
    · rw [encodeAst_cols, encodeAst_cols]; exact hf
    · rw [(encodeAst_last _ a).1, (encodeAst_last _ a').1]
  rcases he : e.origin with ⟨f, o⟩
  rcases he' : e'.origin with ⟨f', o'⟩
  rw [he] at h1 h2 hoe
  rw [he'] at h1 h2
  dsimp only at h1 h2 hoe
  subst h1
  cases o with
  | none =>
    exact .inr ⟨_, _, rfl, rfl, done f f' h2, by rw [(encodeAst_last _ a).2]; exact hoe⟩
  | some p =>
    dsimp only
    have ht := tokenize_cols f f' h2 p cur.start
    cases hk : f.tokenizeWhitespace p cur.start with
    | error x =>
      cases hk' : f'.tokenizeWhitespace p cur.start with
      | error y =>
        rw [hk, hk'] at ht
        cases ht
        exact .inl ⟨x, rfl, rfl⟩
      | ok g' => rw [hk, hk'] at ht; cases ht
    | ok g =>
      cases hk' : f'.tokenizeWhitespace p cur.start with
      | error y => rw [hk, hk'] at ht; cases ht
      | ok g' =>
        rw [hk, hk'] at ht
        refine .inr ⟨_, _, rfl, rfl, done g g' (Except.ok.inj ht), ?_⟩
        rw [(encodeAst_last _ a).2]
        exact (tokenize_end hk).trans hoe

/-! ## Nodes and their outline -/

/-- The error comes from inside a node. -/
def Blamed (ι : Type) (ns : List (Node E)) (x : Err) : Prop :=
  ∃ n, In n ns ∧ ((∃ sp ms, Within n sp ms ∧ quote (ι := ι) sp ms = .error x) ∨
    (x = .lineBreak ∧ ∃ cur paren ps, n = .str cur paren ps ∧ ¬ OneLine (inner paren).1 (inner paren).2 ps))

/-- Nothing is wrong inside the nodes. -/
def Unblamed (ι : Type) (ns : List (Node E)) : Prop :=
  (∀ n, In n ns → ∀ sp ms, Within n sp ms → ∃ o, quote (ι := ι) sp ms = .ok o) ∧ StringsOk ns

/-- How nodes and tokens are placed compares. -/
def NodesSim (ι : Type) (ns : List (Node E)) : Prop :=
  ∀ e : Enc ι E,
    (∀ x, nodes e ns = .error x →
      Blamed ι ns x ∨ ∀ e', PlacesAlike e e' → nodes e' (tokens ((places ns).map (·, []))) = .error x) ∧
    (∀ e1, nodes e ns = .ok e1 → Unblamed ι ns ∧ e1.spanEnd = e.spanEnd ∧
      ∀ e', PlacesAlike e e' → ∃ e1', nodes e' (tokens ((places ns).map (·, []))) = .ok e1' ∧ PlacesAlike e1 e1')

def NodeSim (ι : Type) (n : Node E) : Prop :=
  ∀ e : Enc ι E,
    (∀ x, node e n = .error x →
      Blamed ι [n] x ∨ ∀ e', PlacesAlike e e' → nodes e' (tokens ((placesOf n).map (·, []))) = .error x) ∧
    (∀ e1, node e n = .ok e1 → Unblamed ι [n] ∧ e1.spanEnd = e.spanEnd ∧
      ∀ e', PlacesAlike e e' → ∃ e1', nodes e' (tokens ((placesOf n).map (·, []))) = .ok e1' ∧ PlacesAlike e1 e1')

theorem in_cons {m n : Node E} {ns : List (Node E)} : In m (n :: ns) ↔ In m [n] ∨ In m ns := by
  constructor
  · intro h
    cases h with
    | here h =>
      rcases List.mem_cons.1 h with rfl | h
      · exact .inl (.here (by simp))
      · exact .inr (.here h)
    | group h h' =>
      rcases List.mem_cons.1 h with rfl | h
      · exact .inl (.group (List.mem_singleton_self _) h')
      · exact .inr (.group h h')
  · rintro (h | h)
    · cases h with
      | here h => exact .here (by simp at h; simp [h])
      | group h h' => exact .group (List.mem_cons.2 (.inl (List.mem_singleton.1 h))) h'
    · cases h with
      | here h => exact .here (by simp [h])
      | group h h' => exact .group (List.mem_cons_of_mem _ h) h'

theorem in_group {m : Node E} {cur : Cur} {d : Delimiter} {content : List (Node E)}
    (h : In m [.group cur d content]) : m = .group cur d content ∨ In m content := by
  cases h with
  | here h => exact .inl (by simpa using h)
  | group h h' =>
    simp only [List.mem_singleton, Node.group.injEq] at h
    obtain ⟨-, -, rfl⟩ := h
    exact .inr h'

theorem in_single {m n : Node E} (hg : ∀ cur d content, n ≠ .group cur d content) (h : In m [n]) : m = n := by
  cases h with
  | here h => simpa using h
  | group h h' => exact absurd (List.mem_singleton.1 h).symm (hg _ _ _)

theorem Blamed.left {n : Node E} {ns : List (Node E)} {x : Err} (h : Blamed ι [n] x) : Blamed ι (n :: ns) x := by
  obtain ⟨m, h1, h2⟩ := h
  exact ⟨m, in_cons.2 (.inl h1), h2⟩

theorem Blamed.right {n : Node E} {ns : List (Node E)} {x : Err} (h : Blamed ι ns x) : Blamed ι (n :: ns) x := by
  obtain ⟨m, h1, h2⟩ := h
  exact ⟨m, in_cons.2 (.inr h1), h2⟩

theorem Unblamed.cons {n : Node E} {ns : List (Node E)} (h : Unblamed ι [n]) (h' : Unblamed ι ns) : Unblamed ι (n :: ns) := by
  refine ⟨fun m hm => ?_, fun cur paren ps hm => ?_⟩
  · rcases in_cons.1 hm with hm | hm
    · exact h.1 m hm
    · exact h'.1 m hm
  · rcases in_cons.1 hm with hm | hm
    · exact h.2 cur paren ps hm
    · exact h'.2 cur paren ps hm

theorem clean_nil : Unblamed (E := E) ι [] := by
  have : ∀ m : Node E, ¬ In m [] := by
    intro m h
    cases h with
    | here h => cases h
    | group h _ => cases h
  exact ⟨fun m hm => absurd hm (this m), fun _ _ _ hm => absurd hm (this _)⟩

/-- A node that is one piece. -/
theorem single_sim {α : Type} {n : Node E} {cur : Cur} (X : Except Err α) (f : α → Bool) (a : α → Ast ι E)
    (hp : placesOf n = [cur])
    (hn : ∀ e : Enc ι E, node e n = X.bind (fun o => (e.need (f o)).encode cur (a o)))
    (h1 : ∀ x, X = .error x → Blamed ι [n] x) (h2 : ∀ o, X = .ok o → Unblamed ι [n]) : NodeSim ι n := by
  intro e
  rw [hn, hp]
  cases X with
  | error x =>
    refine ⟨fun y hy => ?_, fun e1 he => by cases he⟩
    cases hy
    exact .inl (h1 x rfl)
  | ok o =>
    have tk : ∀ e' : Enc ι E, nodes e' (tokens ([cur].map (·, []))) = (e'.encode cur (.tree [])).bind .ok := fun _ => rfl
    refine ⟨fun y hy => .inr fun e' he => ?_, fun e1 he1 => ⟨h2 o rfl, ?_⟩⟩
    · rw [tk]
      rcases encode_same (he.need (f o)) cur (a o) (.tree []) with ⟨x, k1, k2⟩ | ⟨_, _, k1, -⟩
      · rw [show Except.bind (Except.ok o) _ = (e.need (f o)).encode cur (a o) from rfl, k1] at hy
        cases hy
        rw [k2]; rfl
      · rw [show Except.bind (Except.ok o) _ = (e.need (f o)).encode cur (a o) from rfl, k1] at hy
        cases hy
    · replace he1 : (e.need (f o)).encode cur (a o) = .ok e1 := he1
      refine ⟨?_, fun e' he => ?_⟩
      · rcases encode_same ((PlacesAlike.refl e).need (f o)) cur (a o) (.tree []) with ⟨x, k1, -⟩ | ⟨_, _, k1, -, -, k4⟩
        · rw [k1] at he1; cases he1
        · rw [k1] at he1; cases he1; exact k4
      · rw [tk]
        rcases encode_same (he.need (f o)) cur (a o) (.tree []) with ⟨x, k1, -⟩ | ⟨_, _, k1, k2, k3, -⟩
        · rw [k1] at he1; cases he1
        · rw [k1] at he1; cases he1
          rw [k2]
          exact ⟨_, rfl, k3⟩

theorem clean_single {n : Node E} (hg : ∀ cur d content, n ≠ .group cur d content)
    (h1 : ∀ sp ms, Within n sp ms → ∃ o, quote (ι := ι) sp ms = .ok o)
    (h2 : ∀ cur paren ps, n = .str cur paren ps → OneLine (inner paren).1 (inner paren).2 ps) : Unblamed ι [n] := by
  refine ⟨fun m hm => ?_, fun cur paren ps hm => ?_⟩
  · rw [in_single hg hm]; exact h1
  · exact h2 cur paren ps (in_single hg hm).symm

/-- A node that is one piece with nothing inside. -/
theorem plain_sim {n : Node E} {cur : Cur} (a : Ast ι E) (hp : placesOf n = [cur])
    (hn : ∀ e : Enc ι E, node e n = e.encode cur a) (hg : ∀ cur d content, n ≠ .group cur d content)
    (h1 : ∀ sp ms, ¬ Within n sp ms) (h2 : ∀ cur paren ps, n ≠ .str cur paren ps) : NodeSim ι n :=
  single_sim (.ok ()) (fun _ => false) (fun _ => a) hp (fun e => by rw [hn, Except.bind, need_false])
    (fun x hx => by cases hx) (fun _ _ => clean_single hg (fun sp ms h => absurd h (h1 sp ms))
      (fun c p ps h => absurd h (h2 c p ps)))

theorem except_assoc {α β γ : Type} (x : Except Err α) (f : α → Except Err β) (g : β → Except Err γ) :
    (x.bind f).bind g = x.bind (fun a => (f a).bind g) := by
  cases x <;> rfl

/-- What goes wrong in an arm. -/
theorem arms_sim (as : List (Arm E)) :
    (∀ x, arms (ι := ι) as = .error x →
      ∃ pat guard paren block, Arm.mk pat guard paren block ∈ as ∧ quote (ι := ι) paren block = .error x) ∧
    (∀ o, arms (ι := ι) as = .ok o →
      ∀ pat guard paren block, Arm.mk pat guard paren block ∈ as → ∃ o, quote (ι := ι) paren block = .ok o) := by
  induction as with
  | nil => exact ⟨fun x h => by (cases h), fun o h _ _ _ _ h' => by (cases h')⟩
  | cons a as ih =>
    obtain ⟨pat, guard, paren, body⟩ := a
    have hm : arms (ι := ι) (.mk pat guard paren body :: as) =
        (quote (ι := ι) paren body).bind (fun o => (arms as).bind (fun o' =>
          .ok (o.1 || o'.1, (pat, guard, o.2) :: o'.2))) := by
      show (nodes (startEnc paren) body).bind _ = ((nodes (startEnc paren) body).bind _).bind _
      rw [← nested]; rfl
    rw [hm]
    cases hq : quote (ι := ι) paren body with
    | error y =>
      refine ⟨fun x hx => ?_, fun o ho => by cases ho⟩
      cases hx
      exact ⟨pat, guard, paren, body, by simp, hq⟩
    | ok o1 =>
      cases ha : arms (ι := ι) as with
      | error y =>
        refine ⟨fun x hx => ?_, fun o ho => by cases ho⟩
        cases hx
        obtain ⟨p, g, pa, b, h1, h2⟩ := ih.1 _ ha
        exact ⟨p, g, pa, b, List.mem_cons_of_mem _ h1, h2⟩
      | ok o2 =>
        refine ⟨fun x hx => by (cases hx), fun o ho p g pa b hm => ?_⟩
        rcases List.mem_cons.1 hm with h | h
        · cases h; exact ⟨o1, hq⟩
        · exact ih.2 _ ha p g pa b h

/-- What goes wrong in a string with parts. -/
theorem parts_sim (close : Pos) (ps : List (Part E)) : ∀ (e : StrEnc ι E) (stop : Pos) (req : Bool),
    e.cursor = some stop →
    (∀ x, finishParts e req ps close = .error x →
      (∃ place span content, Part.stream place span content ∈ ps ∧ quote (ι := ι) (some span) content = .error x) ∨
      (x = .lineBreak ∧ ¬ OneLine stop close ps)) ∧
    (∀ o, finishParts e req ps close = .ok o → OneLine stop close ps ∧
      ∀ place span content, Part.stream place span content ∈ ps →
        ∃ o, quote (ι := ι) (some span) content = .ok o) := by
  have ws : ∀ (e : StrEnc ι E) (stop start : Pos) (tc : Option Pos), e.cursor = some stop →
      (stop.line ≠ start.line → e.flush start tc = .error .lineBreak ∧ e.flushWhitespace start tc = .error .lineBreak) ∧
      (stop.line = start.line → (∃ e', e.flush start tc = .ok e' ∧ e'.cursor = tc) ∧
        ∃ e', e.flushWhitespace start tc = .ok e' ∧ e'.cursor = tc) := by
    intro e stop start tc hc
    obtain ⟨w1, w2⟩ := written_strFlush e stop start tc hc
    refine ⟨fun h => w1 (if_neg h), fun h => ?_⟩
    obtain ⟨⟨e', a1, a2, -⟩, e'', b1, b2, -⟩ := w2 _ (if_pos h)
    exact ⟨⟨e', a1, a2⟩, e'', b1, b2⟩
  induction ps with
  | nil =>
    intro e stop req hc
    obtain ⟨w1, w2⟩ := ws e stop close none hc
    have hf : finishParts e req [] close = (e.flush close none).bind (fun s => .ok (s, req)) := rfl
    rw [hf]
    by_cases h : stop.line = close.line
    · obtain ⟨⟨e', a1, -⟩, -⟩ := w2 h
      rw [a1]
      exact ⟨fun x hx => by (cases hx), fun o _ => ⟨h, fun _ _ _ hm => by (cases hm)⟩⟩
    · rw [(w1 h).1]
      refine ⟨fun x hx => ?_, fun o ho => by (cases ho)⟩
      cases hx
      exact .inr ⟨rfl, h⟩
  | cons p ps ih =>
    intro e stop req hc
    have key : ∀ (adv : StrEnc ι E → Except Err (StrEnc ι E)) (r : Bool),
        (∀ place span content, p = .stream place span content → ∃ o, quote (ι := ι) (some span) content = .ok o) →
        finishParts e req (p :: ps) close = (adv e).bind (fun e => finishParts e r ps close) →
        (stop.line ≠ (placeOf p).start.line → adv e = .error .lineBreak) →
        (stop.line = (placeOf p).start.line → ∃ e', adv e = .ok e' ∧ e'.cursor = some (placeOf p).stop) →
        ((∀ x, finishParts e req (p :: ps) close = .error x →
          (∃ place span content, Part.stream place span content ∈ p :: ps ∧
            quote (ι := ι) (some span) content = .error x) ∨
          (x = .lineBreak ∧ ¬ OneLine stop close (p :: ps))) ∧
        (∀ o, finishParts e req (p :: ps) close = .ok o → OneLine stop close (p :: ps) ∧
          ∀ place span content, Part.stream place span content ∈ p :: ps →
            ∃ o, quote (ι := ι) (some span) content = .ok o)) := by
      intro adv r hin hf ha hb
      rw [hf]
      by_cases h : stop.line = (placeOf p).start.line
      · obtain ⟨e', a1, a2⟩ := hb h
        rw [a1]
        obtain ⟨i1, i2⟩ := ih e' _ r a2
        refine ⟨fun x hx => ?_, fun o ho => ?_⟩
        · rcases i1 x hx with ⟨pl, sp, ct, h1, h2⟩ | ⟨h1, h2⟩
          · exact .inl ⟨pl, sp, ct, List.mem_cons_of_mem _ h1, h2⟩
          · exact .inr ⟨h1, fun h' => h2 h'.2⟩
        · obtain ⟨k1, k2⟩ := i2 o ho
          refine ⟨⟨h, k1⟩, fun pl sp ct hm => ?_⟩
          rcases List.mem_cons.1 hm with hm | hm
          · exact hin pl sp ct hm.symm
          · exact k2 pl sp ct hm
      · rw [ha h]
        refine ⟨fun x hx => ?_, fun o ho => by (cases ho)⟩
        cases hx
        exact .inr ⟨rfl, fun h' => h h'.1⟩
    have text : ∀ t : Str, (∀ place span content, p ≠ .stream place span content) →
        finishParts e req (p :: ps) close =
          (e.encodeStr t (placeOf p).start (placeOf p).stop).bind (fun e => finishParts e req ps close) → _ :=
      fun t hne hf => key (fun e => e.encodeStr t (placeOf p).start (placeOf p).stop) req
        (fun pl sp ct h => absurd h (hne pl sp ct)) hf
        (fun h => by
          show (e.flushWhitespace _ _).bind _ = _
          rw [((ws e stop _ _ hc).1 h).2]; rfl)
        (fun h => by
          obtain ⟨-, e', a1, a2⟩ := (ws e stop _ (some (placeOf p).stop) hc).2 h
          exact ⟨{ e' with buf := e'.buf ++ t }, by show (e.flushWhitespace _ _).bind _ = _; rw [a1]; rfl, a2⟩)
    cases p with
    | dollar cur => exact text ['$'] (fun _ _ _ h => by cases h) (by
        unfold finishParts; rw [parts]; exact (except_assoc _ _ _))
    | constant cur s => exact text s (fun _ _ _ h => by cases h) (by
        unfold finishParts; rw [parts]; exact (except_assoc _ _ _))
    | tt cur s => exact text s (fun _ _ _ h => by cases h) (by
        unfold finishParts; rw [parts]; exact (except_assoc _ _ _))
    | raw cur x =>
      refine key (fun e => e.rawExpr x cur.start cur.stop) req (fun _ _ _ h => by cases h) (by
        unfold finishParts; rw [parts]; exact (except_assoc _ _ _)) (fun h => ?_) (fun h => ?_)
      · show (e.flush _ _).bind _ = _
        rw [((ws e stop cur.start (some cur.stop) hc).1 h).1]; rfl
      · obtain ⟨⟨e', a1, a2⟩, -⟩ := (ws e stop cur.start (some cur.stop) hc).2 h
        refine ⟨{ e' with stream := e'.stream ++ [.value x] }, ?_, a2⟩
        show (e.flush _ _).bind _ = _
        rw [a1]; rfl
    | ident cur name =>
      refine key (fun e => e.evalStream [.call (.append (.literal (.static name)))] cur.start cur.stop) req
        (fun _ _ _ h => by cases h) (by
        unfold finishParts; rw [parts]; exact (except_assoc _ _ _)) (fun h => ?_) (fun h => ?_)
      · show (e.flush _ _).bind _ = _
        rw [((ws e stop cur.start (some cur.stop) hc).1 h).1]; rfl
      · obtain ⟨⟨e', a1, a2⟩, -⟩ := (ws e stop cur.start (some cur.stop) hc).2 h
        refine ⟨{ e' with stream := e'.stream ++ .call (.append .openEval) :: [.call (.append (.literal (.static name)))] ++ [.call (.append .closeEval)], hasEval := true }, ?_, a2⟩
        show (e.flush _ _).bind _ = _
        rw [a1]; rfl
    | stream cur span content =>
      have hf : finishParts e req (.stream cur span content :: ps) close =
          (quote (some span) content).bind (fun o => (e.evalStream o.2 cur.start cur.stop).bind
            (fun e => finishParts e (req || o.1) ps close)) := by
        unfold finishParts
        rw [parts]
        show Except.bind ((nodes (startEnc (some span)) content).bind _) _ =
          Except.bind ((nodes (startEnc (some span)) content).bind _) _
        cases nodes (ι := ι) (startEnc (some span)) content with
        | error x => rfl
        | ok e1 =>
          show Except.bind (e1.intoOutput.bind _) _ = e1.intoOutput.bind _
          cases e1.intoOutput with
          | error x => rfl
          | ok o => exact except_assoc (e.evalStream o.2 cur.start cur.stop) _ _
      cases hq : quote (ι := ι) (some span) content with
      | error y =>
        rw [hf, hq]
        refine ⟨fun x hx => ?_, fun o ho => by (cases ho)⟩
        cases hx
        exact .inl ⟨cur, span, content, by simp, hq⟩
      | ok o =>
        rw [hq] at hf
        refine key (fun e => e.evalStream o.2 cur.start cur.stop) (req || o.1) (fun _ _ _ h => ?_) hf
          (fun h => ?_) (fun h => ?_)
        · cases h; exact ⟨o, hq⟩
        · show (e.flush _ _).bind _ = _
          rw [((ws e stop cur.start (some cur.stop) hc).1 h).1]; rfl
        · obtain ⟨⟨e', a1, a2⟩, -⟩ := (ws e stop cur.start (some cur.stop) hc).2 h
          refine ⟨{ e' with stream := e'.stream ++ .call (.append .openEval) :: o.2 ++ [.call (.append .closeEval)], hasEval := true }, ?_, a2⟩
          show (e.flush _ _).bind _ = _
          rw [a1]; rfl

/-- A node with one block. -/
theorem one_sim {n : Node E} {cur : Cur} {span : Option Cur} {body : List (Node E)}
    (a : List (Stmt ι E) → Ast ι E) (hp : placesOf n = [cur])
    (hn : ∀ e : Enc ι E, node e n = (quote span body).bind (fun o => (e.need o.1).encode cur (a o.2)))
    (hg : ∀ cur d content, n ≠ .group cur d content) (hs : ∀ cur paren ps, n ≠ .str cur paren ps)
    (hw : ∀ sp ms, Within n sp ms ↔ sp = span ∧ ms = body) : NodeSim ι n :=
  single_sim (quote span body) (fun o => o.1) (fun o => a o.2) hp hn
    (fun x hx => ⟨n, .here (by simp), .inl ⟨span, body, (hw _ _).2 ⟨rfl, rfl⟩, hx⟩⟩)
    (fun o ho => clean_single hg (fun sp ms h => by obtain ⟨rfl, rfl⟩ := (hw _ _).1 h; exact ⟨o, ho⟩)
      (fun c p ps h => absurd h (hs c p ps)))

/-- A node with two blocks. -/
theorem two_sim {n : Node E} {cur : Cur} {span span' : Option Cur} {body body' : List (Node E)}
    (a : List (Stmt ι E) → List (Stmt ι E) → Ast ι E) (hp : placesOf n = [cur])
    (hn : ∀ e : Enc ι E, node e n = (quote span body).bind (fun o => (quote span' body').bind (fun o' =>
      (e.need (o.1 || o'.1)).encode cur (a o.2 o'.2))))
    (hg : ∀ cur d content, n ≠ .group cur d content) (hs : ∀ cur paren ps, n ≠ .str cur paren ps)
    (hw : ∀ sp ms, Within n sp ms ↔ (sp = span ∧ ms = body) ∨ (sp = span' ∧ ms = body')) : NodeSim ι n := by
  refine single_sim ((quote (ι := ι) span body).bind (fun o => (quote span' body').bind (fun o' => .ok (o, o'))))
    (fun o => o.1.1 || o.2.1) (fun o => a o.1.2 o.2.2) hp (fun e => ?_) (fun x hx => ?_) (fun o ho => ?_)
  · rw [hn, except_assoc]
    refine congrArg (Except.bind _) (funext fun o => ?_)
    rw [except_assoc]; rfl
  · refine ⟨n, .here (by simp), .inl ?_⟩
    cases hq : quote (ι := ι) span body with
    | error y =>
      rw [hq] at hx
      cases hx
      exact ⟨span, body, (hw _ _).2 (.inl ⟨rfl, rfl⟩), hq⟩
    | ok o =>
      rw [hq] at hx
      cases hq' : quote (ι := ι) span' body' with
      | error y =>
        replace hx : Except.bind (quote (ι := ι) span' body') _ = _ := hx
        rw [hq'] at hx
        cases hx
        exact ⟨span', body', (hw _ _).2 (.inr ⟨rfl, rfl⟩), hq'⟩
      | ok o' =>
        replace hx : Except.bind (quote (ι := ι) span' body') _ = _ := hx
        rw [hq'] at hx
        cases hx
  · refine clean_single hg (fun sp ms h => ?_) (fun c p ps h => absurd h (hs c p ps))
    cases hq : quote (ι := ι) span body with
    | error y => rw [hq] at ho; cases ho
    | ok o1 =>
      cases hq' : quote (ι := ι) span' body' with
      | error y =>
        rw [hq] at ho
        replace ho : Except.bind (quote (ι := ι) span' body') _ = _ := ho
        rw [hq'] at ho
        cases ho
      | ok o2 =>
        rcases (hw _ _).1 h with ⟨rfl, rfl⟩ | ⟨rfl, rfl⟩
        · exact ⟨o1, hq⟩
        · exact ⟨o2, hq'⟩

theorem outline_append (a b : List Tok) : tokens (E := E) (a ++ b) = tokens a ++ tokens b := by
  simp [tokens]

theorem nodes_append (a b : List (Node E)) : ∀ e : Enc ι E, nodes e (a ++ b) = (nodes e a).bind (fun e => nodes e b) := by
  induction a with
  | nil => intro e; rfl
  | cons n a ih =>
    intro e
    show (node e n).bind (fun e => nodes e (a ++ b)) = ((node e n).bind (fun e => nodes e a)).bind _
    rw [except_assoc]
    exact congrArg (Except.bind _) (funext ih)

mutual

theorem nodes_sim : (ns : List (Node E)) → NodesSim ι ns
  | [] => fun e => ⟨fun x h => (by cases h), fun e1 h => by
      cases h
      exact ⟨clean_nil, rfl, fun e' he => ⟨e', rfl, he⟩⟩⟩
  | n :: ns => fun e => by
    obtain ⟨a1, a2⟩ := node_sim n e
    have hn : nodes e (n :: ns) = (node e n).bind (fun e => nodes e ns) := rfl
    have ht : tokens (E := E) ((places (n :: ns)).map (·, [])) =
        tokens ((placesOf n).map (·, [])) ++ tokens ((places ns).map (·, [])) := by
      rw [places, List.map_append, outline_append]
    rw [hn, ht]
    cases hk : node e n with
    | error y =>
      refine ⟨fun x hx => ?_, fun e1 h => by (cases h)⟩
      cases hx
      rcases a1 y hk with h | h
      · exact .inl h.left
      · refine .inr fun e' he => ?_
        rw [nodes_append, h e' he]; rfl
    | ok f =>
      obtain ⟨c1, c2, c3⟩ := a2 f hk
      obtain ⟨b1, b2⟩ := nodes_sim ns f
      refine ⟨fun x hx => ?_, fun e1 h => ?_⟩
      · rcases b1 x hx with h | h
        · exact .inl h.right
        · refine .inr fun e' he => ?_
          obtain ⟨f', k1, k2⟩ := c3 e' he
          rw [nodes_append, k1]
          exact h f' k2
      · obtain ⟨d1, d2, d3⟩ := b2 e1 h
        refine ⟨c1.cons d1, d2.trans c2, fun e' he => ?_⟩
        obtain ⟨f', k1, k2⟩ := c3 e' he
        rw [nodes_append, k1]
        exact d3 f' k2

theorem node_sim : (n : Node E) → NodeSim ι n
  | .tree cur text => plain_sim (.tree text) rfl (fun _ => rfl) (fun _ _ _ h => by cases h)
      (fun _ _ h => by cases h) (fun _ _ _ h => by cases h)
  | .escape cur => plain_sim (.tree ['$']) rfl (fun _ => rfl) (fun _ _ _ h => by cases h)
      (fun _ _ h => by cases h) (fun _ _ _ h => by cases h)
  | .control cur k => plain_sim (.control k) rfl (fun _ => rfl) (fun _ _ _ h => by cases h)
      (fun _ _ h => by cases h) (fun _ _ _ h => by cases h)
  | .quoted cur s => plain_sim (.quoted s) rfl (fun _ => rfl) (fun _ _ _ h => by cases h)
      (fun _ _ h => by cases h) (fun _ _ _ h => by cases h)
  | .literal cur s => plain_sim (.literal s) rfl (fun _ => rfl) (fun _ _ _ h => by cases h)
      (fun _ _ h => by cases h) (fun _ _ _ h => by cases h)
  | .eval cur x => plain_sim (.eval x) rfl (fun _ => rfl) (fun _ _ _ h => by cases h)
      (fun _ _ h => by cases h) (fun _ _ _ h => by cases h)
  | .scope cur b c => plain_sim (.scope b c) rfl (fun _ => rfl) (fun _ _ _ h => by cases h)
      (fun _ _ h => by cases h) (fun _ _ _ h => by cases h)
  | .bind cur pat x => plain_sim (.bind pat x) rfl (fun _ => rfl) (fun _ _ _ h => by cases h)
      (fun _ _ h => by cases h) (fun _ _ _ h => by cases h)
  | .loop cur pat iter body => one_sim (span := none) (body := body) (fun ss => .loop pat iter none ss) rfl
      (fun e => (nested _ _)) (fun _ _ _ h => by cases h) (fun _ _ _ h => by cases h)
      (fun sp ms => ⟨fun h => by cases h; exact ⟨rfl, rfl⟩, by rintro ⟨rfl, rfl⟩; exact .loop ..⟩)
  | .ifThen cur c t => one_sim (span := none) (body := t) (fun ss => .condition c ss none) rfl
      (fun e => (nested _ _)) (fun _ _ _ h => by cases h) (fun _ _ _ h => by cases h)
      (fun sp ms => ⟨fun h => by cases h; exact ⟨rfl, rfl⟩, by rintro ⟨rfl, rfl⟩; exact .ifThen ..⟩)
  | .joined cur pat iter paren sep body => two_sim (span := some paren) (body := sep) (span' := none)
      (body' := body) (fun bs as => .loop pat iter (some bs) as) rfl
      (fun e => (nested _ _).trans (congrArg (Except.bind _) (funext fun o => nested _ _)))
      (fun _ _ _ h => by cases h) (fun _ _ _ h => by cases h)
      (fun sp ms => ⟨fun h => by cases h <;> simp, by
        rintro (⟨rfl, rfl⟩ | ⟨rfl, rfl⟩)
        · exact .separator ..
        · exact .joined ..⟩)
  | .ifElse cur c t f => two_sim (span := none) (body := t) (span' := none)
      (body' := f) (fun as bs => .condition c as (some bs)) rfl
      (fun e => (nested _ _).trans (congrArg (Except.bind _) (funext fun o => nested _ _)))
      (fun _ _ _ h => by cases h) (fun _ _ _ h => by cases h)
      (fun sp ms => ⟨fun h => by cases h <;> simp, by
        rintro (⟨rfl, rfl⟩ | ⟨rfl, rfl⟩)
        · exact .ifTrue ..
        · exact .ifFalse ..⟩)
  | .select cur x as => by
    obtain ⟨a1, a2⟩ := arms_sim (ι := ι) as
    refine single_sim (arms (ι := ι) as) (fun o => o.1) (fun o => .select x o.2) rfl (fun e => rfl)
      (fun y hy => ?_) (fun o ho => ?_)
    · obtain ⟨p, g, pa, b, h1, h2⟩ := a1 y hy
      exact ⟨_, .here (List.mem_singleton_self _), .inl ⟨pa, b, .arm _ _ _ _ _ _ _ h1, h2⟩⟩
    · refine clean_single (fun _ _ _ h => by cases h) (fun sp ms h => ?_) (fun _ _ _ h => by cases h)
      cases h with
      | arm _ _ p g _ _ _ h => exact a2 o ho p g _ _ h
  | .str cur paren ps => by
    obtain ⟨p1, p2⟩ := parts_sim (ι := ι) (inner paren).2 ps { cursor := some (inner paren).1 } (inner paren).1 false rfl
    refine single_sim (finishParts (ι := ι) { cursor := some (inner paren).1 } false ps (inner paren).2)
      (fun o => o.2) (fun o => .string o.1.hasEval o.1.stream) rfl (fun e => ?_) (fun y hy => ?_) (fun o ho => ?_)
    · rw [node]
      unfold finishParts
      show (parts { cursor := some (inner paren).1 } false ps).bind _ = _
      cases parts (ι := ι) { cursor := some (inner paren).1 } false ps with
      | error x => rfl
      | ok o =>
        obtain ⟨s, r⟩ := o
        show (s.flush (inner paren).2 none).bind _ = ((s.flush (inner paren).2 none).bind _).bind _
        cases s.flush (inner paren).2 none <;> rfl
    · refine ⟨_, .here (List.mem_singleton_self _), ?_⟩
      rcases p1 y hy with ⟨pl, sp, ct, h1, h2⟩ | ⟨h1, h2⟩
      · exact .inl ⟨some sp, ct, .part _ _ _ _ _ _ h1, h2⟩
      · exact .inr ⟨h1, cur, paren, ps, rfl, h2⟩
    · obtain ⟨k1, k2⟩ := p2 o ho
      refine clean_single (fun _ _ _ h => by cases h) (fun sp ms h => ?_) (fun c p qs h => ?_)
      · cases h with
        | part _ _ pl sp _ _ h => exact k2 pl sp _ h
      · cases h; exact k1
  | .group cur d content => fun e => by
    have ih := nodes_sim content
    have hp : tokens (E := E) ((placesOf (.group cur d content)).map (·, [])) =
        .tree cur.firstCharacter [] :: (tokens ((places content).map (·, [])) ++ [.tree cur.lastCharacter []]) := by
      rw [placesOf, List.map_append, outline_append, List.map_cons]; rfl
    have ht : ∀ e' : Enc ι E, nodes e' (tokens ((placesOf (.group cur d content)).map (·, []))) =
        (e'.encode cur.firstCharacter (.tree [])).bind (fun e' =>
          (nodes e' (tokens ((places content).map (·, [])))).bind (fun e' =>
            (e'.encode cur.lastCharacter (.tree [])).bind .ok)) := by
      intro e'
      rw [hp]
      show (e'.encode cur.firstCharacter (.tree [])).bind (fun e' => nodes e' (_ ++ _)) = _
      exact congrArg (Except.bind _) (funext fun e' => nodes_append _ _ _)
    have hn : node e (.group cur d content) = (e.encode cur.firstCharacter (.delimiterOpen d)).bind (fun e =>
        (nodes e content).bind (fun e => e.encode cur.lastCharacter (.delimiterClose d))) := rfl
    have bl : ∀ x, Blamed ι content x → Blamed ι [.group cur d content] x := by
      rintro x ⟨m, h1, h2⟩
      exact ⟨m, .group (List.mem_singleton_self _) h1, h2⟩
    have cl : Unblamed ι content → Unblamed ι [.group cur d content] := by
      intro h
      refine ⟨fun m hm => ?_, fun c p ps hm => ?_⟩
      · rcases in_group hm with rfl | hm
        · intro sp ms h; cases h
        · exact h.1 m hm
      · rcases in_group hm with hm | hm
        · cases hm
        · exact h.2 c p ps hm
    rw [hn]
    cases hk : e.encode cur.firstCharacter (.delimiterOpen d) with
    | error y =>
      refine ⟨fun x hx => .inr fun e' he => ?_, fun e1 h => by (cases h)⟩
      cases hx
      rcases encode_same he cur.firstCharacter (.delimiterOpen d) (.tree []) with ⟨x, k1, k2⟩ | ⟨_, _, k1, -⟩
      · rw [hk] at k1; cases k1
        rw [ht, k2]; rfl
      · rw [hk] at k1; cases k1
    | ok f =>
      have first : ∀ e', PlacesAlike e e' → ∃ f', e'.encode cur.firstCharacter (.tree []) = .ok f' ∧ PlacesAlike f f' ∧
          f.spanEnd = e.spanEnd := by
        intro e' he
        rcases encode_same he cur.firstCharacter (.delimiterOpen d) (.tree []) with ⟨x, k1, k2⟩ | ⟨_, f', k1, k2, k3, k4⟩
        · rw [hk] at k1; cases k1
        · rw [hk] at k1; cases k1
          exact ⟨f', k2, k3, k4⟩
      have fe : f.spanEnd = e.spanEnd := by
        obtain ⟨_, _, _, h⟩ := first e (PlacesAlike.refl e)
        exact h
      obtain ⟨b1, b2⟩ := ih f
      show (∀ x, (nodes f content).bind _ = _ → _) ∧ (∀ e1, (nodes f content).bind _ = _ → _)
      cases hc : nodes f content with
      | error y =>
        refine ⟨fun x hx => ?_, fun e1 h => by (cases h)⟩
        cases hx
        rcases b1 y hc with h | h
        · exact .inl (bl y h)
        · refine .inr fun e' he => ?_
          obtain ⟨f', k1, k2, -⟩ := first e' he
          rw [ht, k1]
          show (nodes f' _).bind _ = _
          rw [h f' k2]; rfl
      | ok g =>
        obtain ⟨d1, d2, d3⟩ := b2 g hc
        show (∀ x, g.encode cur.lastCharacter (.delimiterClose d) = _ → _) ∧
          (∀ e1, g.encode cur.lastCharacter (.delimiterClose d) = _ → _)
        refine ⟨fun x hx => .inr fun e' he => ?_, fun e1 h => ⟨cl d1, ?_, fun e' he => ?_⟩⟩
        · obtain ⟨f', k1, k2, -⟩ := first e' he
          obtain ⟨g', l1, l2⟩ := d3 f' k2
          rw [ht, k1]
          show (nodes f' _).bind _ = _
          rw [l1]
          show (g'.encode _ _).bind _ = _
          rcases encode_same l2 cur.lastCharacter (.delimiterClose d) (.tree []) with ⟨x, m1, m2⟩ | ⟨_, _, m1, -⟩
          · rw [hx] at m1; cases m1
            rw [m2]; rfl
          · rw [hx] at m1; cases m1
        · rcases encode_same (PlacesAlike.refl g) cur.lastCharacter (.delimiterClose d) (.tree []) with
            ⟨x, m1, -⟩ | ⟨_, _, m1, -, -, m4⟩
          · rw [h] at m1; cases m1
          · rw [h] at m1; cases m1
            exact m4.trans (d2.trans fe)
        · obtain ⟨f', k1, k2, -⟩ := first e' he
          obtain ⟨g', l1, l2⟩ := d3 f' k2
          rw [ht, k1]
          show ∃ e1', (nodes f' _).bind _ = _ ∧ _
          rw [l1]
          show ∃ e1', (g'.encode _ _).bind _ = _ ∧ _
          rcases encode_same l2 cur.lastCharacter (.delimiterClose d) (.tree []) with ⟨x, m1, m2⟩ | ⟨_, h', m1, m2, m3, -⟩
          · rw [h] at m1; cases m1
          · rw [h] at m1; cases m1
            rw [m2]
            exact ⟨h', rfl, m3⟩

end

/-! ## Blocks and their outline -/

theorem intoOutput_open {e : Enc ι E} (h : e.spanEnd = none) : ∃ o, e.intoOutput = .ok o := by
  unfold Enc.intoOutput
  rw [h]
  exact ⟨_, rfl⟩

/-- The end of a block is placed like a token. -/
theorem finish_same {e e' : Enc ι E} (h : PlacesAlike e e') (f : Pos) (hs : e.spanEnd = some f) :
    (∃ x, e.intoOutput = .error x ∧ e'.encode ⟨f, f⟩ (.tree []) = .error x) ∨
    ∃ o g, e.intoOutput = .ok o ∧ e'.encode ⟨f, f⟩ (.tree []) = .ok g := by
  obtain ⟨h1, h2⟩ := h
  unfold Enc.intoOutput Enc.encode Enc.step
  rw [hs]
  dsimp only
  rw [origin_spanEnd]
  rcases he : e.origin with ⟨k, o⟩
  rcases he' : e'.origin with ⟨k', o'⟩
  rw [he, he'] at h1 h2
  dsimp only at h1 h2
  subst h1
  cases o with
  | none => exact .inr ⟨_, _, rfl, rfl⟩
  | some p =>
    dsimp only
    have ht := tokenize_cols { k with spanEnd := none } k' h2 p f
    cases hk : Enc.tokenizeWhitespace { k with spanEnd := none } p f with
    | error x =>
      cases hk' : k'.tokenizeWhitespace p f with
      | error y =>
        rw [hk, hk'] at ht
        cases ht
        exact .inl ⟨x, rfl, rfl⟩
      | ok g' => rw [hk, hk'] at ht; cases ht
    | ok g =>
      cases hk' : k'.tokenizeWhitespace p f with
      | error y => rw [hk, hk'] at ht; cases ht
      | ok g' => exact .inr ⟨_, _, rfl, rfl⟩

/-- A block and the tokens of its outline. -/
theorem quote_outline (span : Option Cur) (ns : List (Node E)) :
    (∀ x, quote (ι := ι) span ns = .error x →
      Blamed ι ns x ∨ quote (ι := ι) (E := E) none (tokens (outline span ns)) = .error x) ∧
    (∀ o, quote (ι := ι) span ns = .ok o →
      Unblamed ι ns ∧ ∃ o', quote (ι := ι) (E := E) none (tokens (outline span ns)) = .ok o') := by
  have hq : quote (ι := ι) span ns = (nodes (startEnc span) ns).bind Enc.intoOutput := rfl
  have hq' : quote (ι := ι) (E := E) none (tokens (outline span ns)) =
      (nodes (Enc.new none none) (tokens (outline span ns))).bind Enc.intoOutput := rfl
  have keep : ∀ (ts : List Tok) (e e1 : Enc ι E), nodes e (tokens ts) = .ok e1 → e1.spanEnd = e.spanEnd :=
    fun ts e e1 h => ((nodes_sim (tokens ts) e).2 e1 h).2.1
  rw [hq, hq']
  cases span with
  | none =>
    obtain ⟨a1, a2⟩ := nodes_sim ns (Enc.new (ι := ι) none none)
    show (∀ x, (nodes (Enc.new none none) ns).bind _ = _ → _) ∧
      ∀ o, (nodes (Enc.new none none) ns).bind _ = _ → _
    cases hk : nodes (Enc.new (ι := ι) none none) ns with
    | error y =>
      refine ⟨fun x hx => ?_, fun o ho => by (cases ho)⟩
      cases hx
      refine (a1 y hk).imp id fun h => ?_
      rw [show outline none ns = (places ns).map (·, []) from rfl, h _ (PlacesAlike.refl _)]; rfl
    | ok e1 =>
      obtain ⟨b1, b2, b3⟩ := a2 e1 hk
      refine ⟨fun x hx => ?_, fun o _ => ⟨b1, ?_⟩⟩
      · obtain ⟨o, ho⟩ := intoOutput_open b2
        replace hx : e1.intoOutput = .error x := hx
        rw [ho] at hx; cases hx
      · obtain ⟨e1', c1, -⟩ := b3 _ (PlacesAlike.refl _)
        rw [show outline none ns = (places ns).map (·, []) from rfl, c1]
        exact intoOutput_open (keep _ _ _ c1)
  | some c =>
    obtain ⟨a1, a2⟩ := nodes_sim ns (Enc.new (ι := ι) (some (inner c).1) (some (inner c).2))
    have ht : tokens (E := E) (outline (some c) ns) = .tree ⟨(inner c).1, (inner c).1⟩ [] ::
        (tokens ((places ns).map (·, [])) ++ [.tree ⟨(inner c).2, (inner c).2⟩ []]) := by
      rw [outline, List.cons_append, tokens, List.map_cons, List.map_append]; rfl
    let f : Enc ι E := { Enc.new none none with last := some ⟨(inner c).1, (inner c).1⟩ }
    have hf : PlacesAlike (Enc.new (ι := ι) (E := E) (some (inner c).1) (some (inner c).2)) f := ⟨rfl, rfl⟩
    have hn : nodes (Enc.new none none) (tokens (outline (some c) ns)) =
        (nodes f (tokens ((places ns).map (·, [])))).bind (fun e =>
          (e.encode ⟨(inner c).2, (inner c).2⟩ (.tree [])).bind .ok) := by
      rw [ht]
      exact nodes_append _ _ f
    rw [hn, startEnc_some]
    cases hk : nodes (Enc.new (ι := ι) (some (inner c).1) (some (inner c).2)) ns with
    | error y =>
      refine ⟨fun x hx => ?_, fun o ho => by (cases ho)⟩
      cases hx
      refine (a1 y hk).imp id fun h => ?_
      rw [h f hf]; rfl
    | ok e1 =>
      obtain ⟨b1, b2, b3⟩ := a2 e1 hk
      obtain ⟨e1', c1, c2⟩ := b3 f hf
      rw [c1]
      show (∀ x, e1.intoOutput = _ → _ ∨ Except.bind (Except.bind (e1'.encode _ _) _) _ = _) ∧
        ∀ o, e1.intoOutput = _ → _ ∧ ∃ o', Except.bind (Except.bind (e1'.encode _ _) _) _ = _
      rcases finish_same c2 (inner c).2 b2 with ⟨x, d1, d2⟩ | ⟨o, g, d1, d2⟩
      · refine ⟨fun y hy => .inr ?_, fun o ho => by rw [d1] at ho; cases ho⟩
        rw [d1] at hy
        cases hy
        rw [d2]; rfl
      · refine ⟨fun y hy => by (rw [d1] at hy; cases hy), fun _ _ => ⟨b1, ?_⟩⟩
        rw [d2]
        refine intoOutput_open ?_
        rcases encode_same (PlacesAlike.refl e1') ⟨(inner c).2, (inner c).2⟩ (.tree []) (.tree []) with
          ⟨x, k1, -⟩ | ⟨_, _, k1, -, -, k4⟩
        · rw [d2] at k1; cases k1
        · rw [d2] at k1; cases k1
          exact k4.trans (keep _ _ _ c1)

theorem in_size {n : Node E} {ns : List (Node E)} (h : In n ns) : sizeOf n < sizeOf ns := by
  induction h with
  | here h => exact List.sizeOf_lt_of_mem h
  | group h _ ih =>
    have := List.sizeOf_lt_of_mem h
    simp only [Node.group.sizeOf_spec] at this
    omega

theorem within_size {n : Node E} {sp : Option Cur} {ms : List (Node E)} (h : Within n sp ms) :
    sizeOf ms < sizeOf n := by
  cases h with
  | arm _ _ _ _ _ _ _ h =>
    have := List.sizeOf_lt_of_mem h
    simp only [Arm.mk.sizeOf_spec] at this
    simp only [Node.select.sizeOf_spec]
    omega
  | part _ _ _ _ _ _ h =>
    have := List.sizeOf_lt_of_mem h
    simp only [Part.stream.sizeOf_spec] at this
    simp only [Node.str.sizeOf_spec]
    omega
  | _ => simp <;> omega

/-- Where the error of a macro comes from. -/
theorem quote_blame (k : Nat) : ∀ (ns : List (Node E)) (span : Option Cur) (x : Err), sizeOf ns < k →
    quote (ι := ι) span ns = .error x →
    (∃ sp ms, Inside span ns sp ms ∧ quote (ι := ι) (E := E) none (tokens (outline sp ms)) = .error x) ∨
    (x = .lineBreak ∧ ∃ sp ms, Inside span ns sp ms ∧ ¬ StringsOk ms) := by
  induction k with
  | zero => intro ns span x h; omega
  | succ k ih =>
    intro ns span x hk h
    rcases (quote_outline span ns).1 x h with ⟨n, h1, ⟨sp, ms, h2, h3⟩ | ⟨h2, cur, paren, ps, rfl, h3⟩⟩ | h'
    · have s1 := in_size h1
      have s2 := within_size h2
      rcases ih ms sp x (by omega) h3 with ⟨sq, ks, h4, h5⟩ | ⟨h4, sq, ks, h5, h6⟩
      · exact .inl ⟨sq, ks, .deeper h1 h2 h4, h5⟩
      · exact .inr ⟨h4, sq, ks, .deeper h1 h2 h5, h6⟩
    · exact .inr ⟨h2, span, ns, .self .., fun h => h3 (h cur paren ps h1)⟩
    · exact .inl ⟨span, ns, .self .., h'⟩

/-- All blocks of an accepted macro are accepted. -/
theorem quote_all {span sp : Option Cur} {ns ms : List (Node E)} (hi : Inside span ns sp ms) :
    (∃ o, quote (ι := ι) span ns = .ok o) → ∃ o, quote (ι := ι) sp ms = .ok o := by
  induction hi with
  | self => exact id
  | deeper h h1 _ ih =>
    rintro ⟨o, ho⟩
    exact ih (((quote_outline _ _).2 o ho).1.1 _ h _ _ h1)

end Genco.Macro
