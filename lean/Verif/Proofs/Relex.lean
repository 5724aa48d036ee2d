import Verif.Proofs.Reparse

/-!
# The tokens of a text do not depend on where it is
-/

set_option autoImplicit false

namespace Genco.Spec.Reflow

open Genco.Macro MacroFile

/-- A raw token without its place. -/
def raw : Raw → Raw
  | .leaf t => .leaf (token t)
  | .opening _ d => .opening ⟨0, 0, 0⟩ d
  | .closing _ d => .closing ⟨0, 0, 0⟩ d

/-- What has been begun, without its place. -/
def pending : Pending → Pending
  | .none => .none
  | .word _ text => .word ⟨0, 0, 0⟩ text
  | .quote _ ch esc value text => .quote ⟨0, 0, 0⟩ ch esc value text
  | .comment n => .comment n

/-- The outcome of a step, without places. -/
def outcome (o : List Raw × Pending) : List Raw × Pending := (o.1.map raw, pending o.2)

theorem wordToken_raw (C C' : Compiler) (a b a' b' : Place) (text : Str) :
    (wordToken C a b text).map raw = (wordToken C' a' b' text).map raw := by
  unfold wordToken
  split
  · split
    · split <;> simp [raw, token]
    · simp [raw, token]
  · rfl

theorem lexFresh_raw (C C' : Compiler) (p p' : Place) (c : Char) (rest : Str) :
    (lexFresh C p c rest).map outcome = (lexFresh C' p' c rest).map outcome := by
  unfold lexFresh
  split
  · rfl
  split
  · rfl
  split
  · rfl
  split
  · rfl
  split
  · split <;> rfl
  split
  · simp [outcome, raw]
  · simp [outcome, raw]
  · split <;> simp [outcome, raw, token]

theorem lexStep_raw (C C' : Compiler) (p p' : Place) (c : Char) (rest : Str) {q q' : Pending} (h : pending q = pending q') :
    (lexStep C p c rest q).map outcome = (lexStep C' p' c rest q').map outcome := by
  cases q with
  | none =>
    cases q' <;> simp [pending] at h
    exact lexFresh_raw C C' p p' c rest
  | word s text =>
    cases q' <;> simp [pending] at h
    rename_i s' text'
    subst h
    simp only [lexStep]
    split
    · rfl
    split
    · rfl
    have h1 := wordToken_raw C C' s p s' p' text
    have h2 := lexFresh_raw C C' p p' c rest
    cases hw : wordToken C s p text with
    | none =>
      rw [hw] at h1
      have := Option.map_eq_none_iff.1 h1.symm
      rw [this]; rfl
    | some w =>
      rw [hw] at h1
      obtain ⟨w', hw', e⟩ := Option.map_eq_some_iff.1 h1.symm
      rw [hw']
      cases hf : lexFresh C p c rest with
      | none =>
        rw [hf] at h2
        have := Option.map_eq_none_iff.1 h2.symm
        rw [this]; rfl
      | some o =>
        rw [hf] at h2
        obtain ⟨o', ho', e'⟩ := Option.map_eq_some_iff.1 h2.symm
        rw [ho']
        obtain ⟨e1, e2⟩ := Prod.ext_iff.1 e'
        refine congrArg some (Prod.ext ?_ e2.symm)
        show raw w :: o.1.map raw = raw w' :: o'.1.map raw
        rw [e]
        exact congrArg _ e1.symm
  | quote s ch esc value text =>
    cases q' <;> simp [pending] at h
    rename_i s' ch' esc' value' text'
    obtain ⟨rfl, rfl, rfl, rfl⟩ := h
    cases esc with
    | true =>
      simp only [lexStep, Option.map_map]
      rfl
    | false =>
      cases ch with
      | false =>
        simp only [lexStep]
        split
        · rfl
        split
        · split
          · rfl
          · simp [outcome, raw, token, pending]
        split
        · rfl
        · rfl
      | true =>
        simp only [lexStep]
        split
        · rfl
        split
        · split
          · rfl
          · split
            · simp [outcome, raw, token, pending]
            · rfl
        split
        · rfl
        · rfl
  | comment n =>
    cases q' <;> simp [pending] at h
    subst h
    rfl

theorem lexFrom_raw (C C' : Compiler) (s : Str) : ∀ (p p' : Place) {q q' : Pending}, pending q = pending q' →
    (lexFrom C p q s).map (List.map raw) = (lexFrom C' p' q' s).map (List.map raw) := by
  induction s with
  | nil =>
    intro p p' q q' h
    cases q <;> cases q' <;> simp [pending] at h <;> try rfl
    rename_i a t a' t'
    subst h
    have := wordToken_raw C C' a p a' p' t
    simp only [lexFrom, Option.map_map]
    have e := congrArg (Option.map fun w => [w]) this
    simp only [Option.map_map] at e
    exact e
  | cons c r ih =>
    intro p p' q q' h
    have h1 := lexStep_raw C C' p p' c r h
    simp only [lexFrom]
    cases hs : lexStep C p c r q with
    | none =>
      rw [hs] at h1
      have := Option.map_eq_none_iff.1 h1.symm
      rw [this]; rfl
    | some o =>
      rw [hs] at h1
      obtain ⟨o', ho', e⟩ := Option.map_eq_some_iff.1 h1.symm
      rw [ho']
      obtain ⟨e1, e2⟩ := Prod.ext_iff.1 e
      have h2 := ih (p.next c) (p'.next c) e2.symm
      have e1 : o'.1.map raw = o.1.map raw := e1
      show ((lexFrom C (p.next c) o.2 r).bind fun rest => some (o.1 ++ rest)).map (List.map raw) =
        ((lexFrom C' (p'.next c) o'.2 r).bind fun rest => some (o'.1 ++ rest)).map (List.map raw)
      cases hl : lexFrom C (p.next c) o.2 r with
      | none =>
        rw [hl] at h2
        have := Option.map_eq_none_iff.1 h2.symm
        rw [this]; rfl
      | some x =>
        rw [hl] at h2
        obtain ⟨x', hx', ex⟩ := Option.map_eq_some_iff.1 h2.symm
        rw [hx']
        simp only [Option.bind_some, Option.map_some, List.map_append, e1, ex]

/-- Open groups without their places. -/
def opened (l : List (Genco.Macro.Place × Delimiter × List TT)) : List (Delimiter × List TT) :=
  l.map fun x => (x.2.1, tokensOf x.2.2)

theorem tokensOf_reverse (ts : List TT) : tokensOf ts.reverse = (tokensOf ts).reverse := by
  rw [tokensOf_map, tokensOf_map, List.map_reverse]

theorem trees_raw (C C' : Compiler) (rs : List Raw) : ∀ (rs' : List Raw) (st st' : List (Genco.Macro.Place × Delimiter × List TT))
    (acc acc' : List TT), rs.map raw = rs'.map raw → opened st = opened st' → tokensOf acc = tokensOf acc' →
    (trees C st acc rs).map tokensOf = (trees C' st' acc' rs').map tokensOf := by
  induction rs with
  | nil =>
    intro rs' st st' acc acc' hr hs ha
    obtain rfl := List.map_eq_nil_iff.1 hr.symm
    have : st.isEmpty = st'.isEmpty := by
      cases st <;> cases st' <;> simp [opened] at hs <;> rfl
    simp only [trees, this]
    split
    · simp only [Option.map_some, tokensOf_reverse, ha]
    · rfl
  | cons x rs ih =>
    intro rs' st st' acc acc' hr hs ha
    cases rs' with
    | nil => simp at hr
    | cons x' rs' =>
      simp only [List.map_cons, List.cons.injEq] at hr
      obtain ⟨hx, hr⟩ := hr
      cases x with
      | leaf t =>
        cases x' <;> simp [raw] at hx
        simp only [trees]
        exact ih _ _ _ _ _ hr hs (by simp only [tokensOf, hx, ha])
      | opening p d =>
        cases x' <;> simp [raw] at hx
        subst hx
        simp only [trees]
        exact ih _ _ _ _ _ hr (by simp only [opened, List.map_cons, ha]; exact congrArg _ hs) rfl
      | closing p d =>
        cases x' <;> simp [raw] at hx
        subst hx
        cases st with
        | nil =>
          have : st' = [] := List.map_eq_nil_iff.1 hs.symm
          subst this
          rfl
        | cons y st =>
          cases st' with
          | nil => simp [opened] at hs
          | cons y' st' =>
            obtain ⟨q, d1, o⟩ := y
            obtain ⟨q', d2, o'⟩ := y'
            simp only [opened, List.map_cons, List.cons.injEq, Prod.mk.injEq] at hs
            obtain ⟨⟨rfl, ho⟩, hs⟩ := hs
            simp only [trees]
            split
            · exact ih _ _ _ _ _ hr hs (by simp only [tokensOf, token, tokensOf_reverse, ha, ho])
            · rfl

/-- The tokens of a text do not depend on the compiler, nor on where the text starts. -/
theorem lex_tokens (C C' : Compiler) (p p' : Genco.Macro.Place) (s : Str) :
    (lex C p s).map tokensOf = (lex C' p' s).map tokensOf := by
  have h := lexFrom_raw C C' s p p' (q := .none) (q' := .none) rfl
  unfold lex
  cases hl : lexFrom C p .none s with
  | none =>
    rw [hl] at h
    have := Option.map_eq_none_iff.1 h.symm
    rw [this]; rfl
  | some x =>
    rw [hl] at h
    obtain ⟨x', hx', ex⟩ := Option.map_eq_some_iff.1 h.symm
    rw [hx']
    exact trees_raw C C' x x' [] [] [] [] ex.symm rfl rfl

/-! ## Other whitespace -/

theorem space_cases {c : Char} (h : c.isWhitespace = true) : c = ' ' ∨ c = '\t' ∨ c = '\r' ∨ c = '\n' := by
  simp only [Char.isWhitespace, Bool.or_eq_true, decide_eq_true_eq] at h
  rcases h with ((h | h) | h) | h <;> simp [h]

theorem space_facts {c : Char} (h : c.isWhitespace = true) : wordChar c = false ∧ punctChar c = false ∧ c ≠ '/' ∧ c ≠ '*' ∧
    ¬ (c = '#' ∨ c = '"' ∨ c = '\'') := by
  rcases space_cases h with rfl | rfl | rfl | rfl <;> decide

/-- Nothing depends on what is behind a text that is followed by whitespace. -/
theorem lexFresh_front (C : Compiler) (p : Genco.Macro.Place) (c : Char) (a : Str) {x : Char} (hx : x.isWhitespace = true) (y : Str) :
    lexFresh C p c (a ++ x :: y) = lexFresh C p c a := by
  obtain ⟨h1, h2, h3, h4, h5⟩ := space_facts hx
  have k1 : ∀ c, startsComment (c :: (a ++ x :: y)) = startsComment (c :: a) := by
    intro c
    cases a with
    | nil =>
      rw [List.nil_append]
      by_cases hc : c = '/'
      · subst hc; unfold startsComment; split <;> simp_all
      · unfold startsComment; split <;> simp_all
    | cons d a =>
      by_cases hc : c = '/'
      · subst hc
        by_cases hd : d = '/'
        · subst hd; rfl
        by_cases hd' : d = '*'
        · subst hd'; rfl
        rw [List.cons_append]
        unfold startsComment; split <;> split <;> simp_all
      · rw [List.cons_append]
        unfold startsComment; split <;> split <;> simp_all
  have k2 : startsComment (a ++ x :: y) = startsComment a := by
    cases a with
    | nil => rw [List.nil_append]; unfold startsComment; split <;> simp_all
    | cons d a =>
      cases a with
      | nil =>
        simp only [List.cons_append, List.nil_append]
        unfold startsComment; split <;> simp_all
      | cons e a =>
        simp only [List.cons_append]
        unfold startsComment; split <;> split <;> simp_all
  have k3 : ((a ++ x :: y).head? = some '/') = (a.head? = some '/') := by
    cases a with
    | nil => simp [h3]
    | cons d a => rfl
  have k4 : (a ++ x :: y).head?.any punctChar = a.head?.any punctChar := by
    cases a with
    | nil => simp [h2]
    | cons d a => rfl
  unfold lexFresh
  simp only [k1, k2, k3, k4]

theorem lexStep_front (C : Compiler) (p : Genco.Macro.Place) (c : Char) (a : Str) {x : Char} (hx : x.isWhitespace = true) (y : Str)
    (q : Pending) : lexStep C p c (a ++ x :: y) q = lexStep C p c a q := by
  have k : (a ++ x :: y).head?.any wordChar = a.head?.any wordChar := by
    cases a with
    | nil => simp [(space_facts hx).1]
    | cons d a => rfl
  cases q with
  | none => exact lexFresh_front C p c a hx y
  | word s t => simp only [lexStep, lexFresh_front C p c a hx y]
  | quote s ch esc v t => cases esc <;> cases ch <;> simp only [lexStep, k]
  | comment n => rfl

theorem lexFrom_cons (C : Compiler) (p : Genco.Macro.Place) (q : Pending) (c : Char) (r : Str) : lexFrom C p q (c :: r) =
    (lexStep C p c r q).bind fun o => (lexFrom C (p.next c) o.2 r).bind fun rest => some (o.1 ++ rest) := rfl

theorem lexFresh_space (C : Compiler) (p : Genco.Macro.Place) {c : Char} (hc : c.isWhitespace = true) (r : Str) :
    lexFresh C p c r = some ([], .none) := by
  unfold lexFresh
  rw [if_pos hc]

theorem skip_space (C : Compiler) (b w : Str) (hw : ∀ c ∈ w, c.isWhitespace = true) : ∀ p : Genco.Macro.Place,
    ∃ p', lexFrom C p .none (w ++ b) = lexFrom C p' .none b := by
  induction w with
  | nil => exact fun p => ⟨p, rfl⟩
  | cons c w ih =>
    intro p
    obtain ⟨p', h⟩ := ih (fun c hc => hw c (List.mem_cons_of_mem _ hc)) (p.next c)
    refine ⟨p', ?_⟩
    rw [List.cons_append, lexFrom_cons, show lexStep C p c (w ++ b) .none = lexFresh C p c (w ++ b) from rfl,
      lexFresh_space C p (hw c (List.mem_cons_self ..)), Option.bind_some, h]
    cases lexFrom C p' .none b <;> rfl

/-- What is pending may end here: no string, and no comment unless the line is over. -/
def Endable (q : Pending) (w : Str) : Prop :=
  match q with
  | .none => True
  | .word _ _ => True
  | .quote _ _ _ _ _ => False
  | .comment _ => w.head? = some '\n'

/-- The token that ends before whitespace. -/
def flush (C : Compiler) (p : Genco.Macro.Place) : Pending → Option (List Raw)
  | .word start text => (wordToken C start p text).map fun w => [w]
  | _ => some []

theorem lexFrom_space (C : Compiler) (p : Genco.Macro.Place) (q : Pending) (w b : Str) (hne : w ≠ []) (hw : ∀ c ∈ w, c.isWhitespace = true)
    (hq : Endable q w) : ∃ p', lexFrom C p q (w ++ b) =
      (flush C p q).bind fun out => (lexFrom C p' .none b).bind fun rest => some (out ++ rest) := by
  cases w with
  | nil => exact absurd rfl hne
  | cons c w =>
    obtain ⟨p', h⟩ := skip_space C b w (fun c hc => hw c (List.mem_cons_of_mem _ hc)) (p.next c)
    refine ⟨p', ?_⟩
    have hc := hw c (List.mem_cons_self ..)
    rw [List.cons_append, lexFrom_cons]
    cases q with
    | none =>
      rw [show lexStep C p c (w ++ b) .none = lexFresh C p c (w ++ b) from rfl, lexFresh_space C p hc, Option.bind_some, h]
      rfl
    | word s t =>
      obtain ⟨h1, -, -, -, h5⟩ := space_facts hc
      simp only [lexStep, h1, h5, if_false, Bool.false_eq_true, lexFresh_space C p hc, flush]
      cases wordToken C s p t with
      | none => rfl
      | some x =>
        show ((lexFrom C (p.next c) .none (w ++ b)).bind fun rest => some ([x] ++ rest)) = _
        rw [h]; rfl
    | quote s ch esc v t => exact absurd hq id
    | comment n =>
      have : c = '\n' := Option.some.inj hq
      subst this
      simp only [lexStep, if_true, Option.bind_some, h, flush]

theorem lexFresh_slash {C : Compiler} {p : Genco.Macro.Place} {c : Char} {r : Str} {o : List Raw × Pending} (h : lexFresh C p c r = some o)
    (hc : c ≠ '/') : ∀ n, o.2 ≠ .comment n := by
  have k : startsComment (c :: r) = false := by unfold startsComment; split <;> simp_all
  unfold lexFresh at h
  rw [k] at h
  intro n
  split at h
  · cases h; simp
  split at h
  · cases h; simp
  split at h
  · cases h; simp
  split at h
  · cases h; simp
  simp only [Bool.false_eq_true, if_false] at h
  split at h
  · cases h; simp
  · cases h; simp
  · split at h
    · cases h; simp
    · cases h

theorem lexStep_slash {C : Compiler} {p : Genco.Macro.Place} {c : Char} {r : Str} {q : Pending} {o : List Raw × Pending}
    (h : lexStep C p c r q = some o) (hc : c ≠ '/') (hq : ∀ n, q ≠ .comment n) : ∀ n, o.2 ≠ .comment n := by
  cases q with
  | none => exact lexFresh_slash h hc
  | word s t =>
    simp only [lexStep] at h
    split at h
    · cases h; simp
    split at h
    · cases h
    obtain ⟨w, -, h⟩ := Option.bind_eq_some_iff.1 h
    obtain ⟨o', ho, h⟩ := Option.bind_eq_some_iff.1 h
    cases h
    exact fun n => lexFresh_slash (o := o') ho hc n
  | quote s ch esc v t =>
    intro n
    cases esc with
    | true =>
      obtain ⟨x, -, rfl⟩ := Option.map_eq_some_iff.1 h
      simp
    | false =>
      cases ch with
      | false =>
        simp only [lexStep] at h
        split at h
        · cases h; simp
        split at h
        · split at h
          · cases h
          · cases h; simp
        split at h
        · cases h
        · cases h; simp
      | true =>
        simp only [lexStep] at h
        split at h
        · cases h; simp
        split at h
        · split at h
          · cases h
          · split at h
            · cases h; simp
            · cases h
        split at h
        · cases h
        · cases h; simp
  | comment n => exact absurd rfl (hq n)

theorem lexFrom_respace (C : Compiler) (w w' b : Str) (hne : w ≠ []) (hne' : w' ≠ []) (hw : ∀ c ∈ w, c.isWhitespace = true)
    (hw' : ∀ c ∈ w', c.isWhitespace = true) (a : Str) : ∀ (p : Genco.Macro.Place) (q : Pending), (lexFrom C p q a).isSome = true →
    ((w.head? = some '\n' ∧ w'.head? = some '\n') ∨ ('/' ∉ a ∧ ∀ n, q ≠ .comment n)) →
    (lexFrom C p q (a ++ (w ++ b))).map (List.map raw) = (lexFrom C p q (a ++ (w' ++ b))).map (List.map raw) := by
  induction a with
  | nil =>
    intro p q hs hd
    have e1 : Endable q w := by
      cases q with
      | none => trivial
      | word _ _ => trivial
      | quote _ _ _ _ _ => cases hs
      | comment n => exact hd.elim (·.1) fun h => absurd rfl (h.2 n)
    have e2 : Endable q w' := by
      cases q with
      | none => trivial
      | word _ _ => trivial
      | quote _ _ _ _ _ => cases hs
      | comment n => exact hd.elim (·.2) fun h => absurd rfl (h.2 n)
    obtain ⟨p1, h1⟩ := lexFrom_space C p q w b hne hw e1
    obtain ⟨p2, h2⟩ := lexFrom_space C p q w' b hne' hw' e2
    rw [List.nil_append, List.nil_append, h1, h2]
    have h := lexFrom_raw C C b p1 p2 (q := .none) (q' := .none) rfl
    cases flush C p q with
    | none => rfl
    | some out =>
      simp only [Option.bind_some]
      cases hl : lexFrom C p1 .none b with
      | none =>
        rw [hl] at h
        have := Option.map_eq_none_iff.1 h.symm
        rw [this]
      | some x =>
        rw [hl] at h
        obtain ⟨x', hx', ex⟩ := Option.map_eq_some_iff.1 h.symm
        rw [hx']
        simp only [Option.bind_some, Option.map_some, List.map_append, ex]
  | cons c a ih =>
    intro p q hs hd
    rw [lexFrom_cons] at hs
    obtain ⟨o, ho⟩ : ∃ o, lexStep C p c a q = some o := by
      cases h : lexStep C p c a q with
      | none => rw [h] at hs; cases hs
      | some o => exact ⟨o, rfl⟩
    have hs' : (lexFrom C (p.next c) o.2 a).isSome = true := by
      rw [ho, Option.bind_some] at hs
      cases h : lexFrom C (p.next c) o.2 a with
      | none => rw [h] at hs; cases hs
      | some x => rfl
    have hd' : (w.head? = some '\n' ∧ w'.head? = some '\n') ∨ ('/' ∉ a ∧ ∀ n, o.2 ≠ .comment n) := by
      refine hd.imp id fun ⟨h1, h2⟩ => ⟨fun h => h1 (List.mem_cons_of_mem _ h), ?_⟩
      exact lexStep_slash ho (fun e => h1 (e ▸ List.mem_cons_self ..)) h2
    have h := ih (p.next c) o.2 hs' hd'
    have front : ∀ v : Str, v ≠ [] → (∀ c ∈ v, c.isWhitespace = true) → lexStep C p c (a ++ (v ++ b)) q = some o := by
      intro v hv hs
      cases v with
      | nil => exact absurd rfl hv
      | cons x v => rw [List.cons_append, lexStep_front C p c a (hs x (List.mem_cons_self ..)), ho]
    rw [List.cons_append, List.cons_append, lexFrom_cons, lexFrom_cons, front w hne hw, front w' hne' hw']
    simp only [Option.bind_some]
    cases hl : lexFrom C (p.next c) o.2 (a ++ (w ++ b)) with
    | none =>
      rw [hl] at h
      have := Option.map_eq_none_iff.1 h.symm
      rw [this]
    | some x =>
      rw [hl] at h
      obtain ⟨x', hx', ex⟩ := Option.map_eq_some_iff.1 h.symm
      rw [hx']
      simp only [Option.bind_some, Option.map_some, List.map_append, ex]

/-- Other whitespace between tokens makes no other tokens. -/
theorem lex_respaced {s s' : Str} (h : Respaced s s') : ∀ (C C' : Compiler) (p p' : Genco.Macro.Place),
    (lex C p s).map tokensOf = (lex C' p' s').map tokensOf := by
  induction h with
  | same s => exact fun C C' p p' => lex_tokens C C' p p' s
  | gap a w w' b ha hne hne' hw hw' hd =>
    intro C C' p p'
    rw [lex_tokens C' C p' p]
    have hs : (lexFrom C p .none a).isSome = true := by
      have := congrArg Option.isSome (lexFrom_raw C .nightly a p ⟨1, 0, 0⟩ (q := .none) (q' := .none) rfl)
      rw [Option.isSome_map, Option.isSome_map] at this
      exact this.trans ha
    have h := lexFrom_respace C w w' b hne hne' hw hw' a p .none hs (hd.imp id fun h => ⟨h, by simp⟩)
    rw [List.append_assoc, List.append_assoc]
    unfold lex
    cases hl : lexFrom C p .none (a ++ (w ++ b)) with
    | none =>
      rw [hl] at h
      have := Option.map_eq_none_iff.1 h.symm
      rw [this]
    | some x =>
      rw [hl] at h
      obtain ⟨x', hx', ex⟩ := Option.map_eq_some_iff.1 h.symm
      rw [hx']
      exact trees_raw C C x x' [] [] [] [] ex.symm rfl rfl
  | trans _ _ ih1 ih2 =>
    intro C C' p p'
    rw [ih1 C C p p, ih2 C C' p p']

/-! ## The parser for code -/

theorem fatArrow_tokens (ts : List TT) : fatArrow (tokensOf ts) = (fatArrow ts).map tokensOf := by
  cases ts with
  | nil => simp [tokensOf, fatArrow]
  | cons t r =>
    cases t with
    | punct c ch j =>
      cases r with
      | nil => simp only [tokensOf, token, fatArrow]; rfl
      | cons t' r' =>
        cases t' with
        | punct c' ch' j' =>
          simp only [tokensOf, token]
          by_cases h : ch = '=' ∧ j = true ∧ ch' = '>'
          · obtain ⟨rfl, rfl, rfl⟩ := h; rfl
          · have e1 : ∀ a b x, fatArrow (.punct a ch j :: .punct b ch' j' :: x) = none := by
              intro a b x
              unfold fatArrow
              split
              · rename_i heq
                simp only [List.cons.injEq, TT.punct.injEq] at heq
                exact absurd ⟨heq.1.2.1, heq.1.2.2, heq.2.1.2.1⟩ h
              · rfl
            rw [e1, e1]; rfl
        | _ => simp only [tokensOf, token, fatArrow]; rfl
    | _ => simp only [tokensOf, token, fatArrow]; rfl

theorem startsWith_tokens (w : String) (ts : List TT) : startsWith w (tokensOf ts) = startsWith w ts := by
  cases ts with
  | nil => simp [tokensOf]
  | cons t r => cases t <;> simp [tokensOf, token, startsWith]

theorem startsBrace_tokens (ts : List TT) : startsBrace (tokensOf ts) = startsBrace ts := by
  cases ts with
  | nil => simp [tokensOf]
  | cons t r =>
    cases t with
    | group c d x => cases d <;> simp [tokensOf, token, startsBrace]
    | _ => simp [tokensOf, token, startsBrace]

theorem startsEq_tokens (ts : List TT) : startsEq (tokensOf ts) = startsEq ts := by
  cases ts with
  | nil => simp [tokensOf]
  | cons t r => cases t <;> simp [tokensOf, token, startsEq]

theorem upTo_tokens {stop : List TT → Bool} (h : ∀ ts, stop (tokensOf ts) = stop ts) (ts : List TT) :
    upTo stop (tokensOf ts) = (upTo stop ts).map fun p => (tokensOf p.1, tokensOf p.2) := by
  induction ts with
  | nil => simp [tokensOf, upTo]
  | cons t r ih =>
    cases r with
    | nil => simp [tokensOf, upTo]
    | cons t' r' =>
      have e1 : ∀ (a b : TT) (x : List TT), upTo stop (a :: b :: x) =
          if stop (b :: x) then some ([a], b :: x) else (upTo stop (b :: x)).map (fun p => (a :: p.1, p.2)) := by
        intro a b x; rw [upTo]
      have e2 : tokensOf (t :: t' :: r') = token t :: token t' :: tokensOf r' := by simp only [tokensOf]
      have e3 : token t' :: tokensOf r' = tokensOf (t' :: r') := by simp only [tokensOf]
      rw [e2, e1, e1, e3, h, ih]
      split
      · simp [tokensOf]
      · rw [Option.map_map, Option.map_map]
        congr 1

/-- It makes no difference to the model of `syn` where code is. -/
theorem blind_syn : Blind syn where
  expr := upTo_tokens fun ts => by
    simp only [exprEnd, fatArrow_tokens, startsWith_tokens, startsBrace_tokens, Option.isSome_map]
  fullExpr := upTo_tokens fun ts => by simp only [exprEnd, fatArrow_tokens, startsWith_tokens, Option.isSome_map]
  pat := upTo_tokens fun ts => by simp only [fatArrow_tokens, startsWith_tokens, startsEq_tokens, Option.isSome_map]
  patMulti := upTo_tokens fun ts => by simp only [fatArrow_tokens, startsWith_tokens, Option.isSome_map]
  display t := by show (token t).words.flatten = t.words.flatten; rw [words_token]

end Genco.Spec.Reflow
