import Verif.Model.Lex
import Verif.Spec.Text

/-!
# Comments are read as spaces
-/

set_option autoImplicit false

namespace Genco.Proofs.TextFile

open Macro Spec.Text

variable (C : Compiler)

theorem next_line (p : Place) : p.next '\n' = ⟨p.line + 1, 0, p.offset + 1⟩ := rfl

theorem lex_space (p : Place) (r : Str) : lexFrom C p .none (' ' :: r) = lexFrom C (p.next ' ') .none r := by
  rw [lexFrom]
  simp [lexStep, lexFresh, show Char.isWhitespace ' ' = true by decide]

theorem lex_break (p : Place) (r : Str) : lexFrom C p .none ('\n' :: r) = lexFrom C (p.next '\n') .none r := by
  rw [lexFrom]
  simp [lexStep, lexFresh, show Char.isWhitespace '\n' = true by decide]

/-- Spaces only move the place. -/
theorem lex_spaces (n : Nat) (p : Place) (r : Str) : ∃ p' : Place, p'.line = p.line ∧ p'.offset = p.offset + n ∧
    lexFrom C p .none (List.replicate n ' ' ++ r) = lexFrom C p' .none r := by
  induction n generalizing p with
  | zero => exact ⟨p, rfl, rfl, rfl⟩
  | succ n ih =>
    obtain ⟨p', h1, h2, h3⟩ := ih (p.next ' ')
    refine ⟨p', ?_, ?_, ?_⟩
    · rw [h1]; rfl
    · have : (p.next ' ').offset = p.offset + 1 := rfl
      rw [h2, this]; omega
    · rw [List.replicate_succ, List.cons_append, lex_space, h3]

theorem lineComment {c : Char} {r : Str} (h : ¬(c = '/' ∧ r.head? = some '/')) : bare false (c :: r) = c :: bare false r := by
  cases r with
  | nil => rfl
  | cons d r =>
    rw [bare, if_neg (by simpa using h)]

/-- The first character is still there, if no comment starts. -/
theorem head_bare (r : Str) : (bare false r).head? = r.head? ∨ ∃ x, r = '/' :: '/' :: x ∧ (bare false r).head? = some ' ' := by
  cases r with
  | nil => exact .inl rfl
  | cons c r =>
    by_cases h : c = '/' ∧ r.head? = some '/'
    · obtain ⟨rfl, h⟩ := h
      cases r with
      | nil => cases h
      | cons d r =>
        cases h
        exact .inr ⟨r, rfl, by simp [bare]⟩
    · exact .inl (by rw [lineComment h]; rfl)

theorem starts_iff (r : Str) : startsComment r = true ↔ ∃ x, r = '/' :: '/' :: x ∨ r = '/' :: '*' :: x := by
  unfold startsComment
  split
  · simp
  · simp
  · rename_i h1 h2
    simp only [Bool.false_eq_true, false_iff, not_exists, not_or]
    exact fun x => ⟨fun e => h1 x e, fun e => h2 x e⟩

theorem starts_cons (c : Char) (r : Str) : startsComment (c :: r) = (c == '/' && (r.head? == some '/' || r.head? == some '*')) := by
  rw [Bool.eq_iff_iff, starts_iff]
  cases r with
  | nil => simp
  | cons d r =>
    simp only [List.cons.injEq, List.head?_cons, Bool.and_eq_true, Bool.or_eq_true, beq_iff_eq, Option.some.injEq]
    constructor
    · rintro ⟨x, ⟨a, b, -⟩ | ⟨a, b, -⟩⟩
      · exact ⟨a, .inl b⟩
      · exact ⟨a, .inr b⟩
    · rintro ⟨a, b | b⟩
      · exact ⟨r, .inl ⟨a, b, rfl⟩⟩
      · exact ⟨r, .inr ⟨a, b, rfl⟩⟩

/-- A fresh character that starts no comment. -/
theorem fresh_bare (p : Place) {c : Char} {r : Str} (h : ¬(c = '/' ∧ r.head? = some '/')) :
    lexFresh C p c (bare false r) = lexFresh C p c r := by
  have h1 : startsComment (c :: bare false r) = startsComment (c :: r) := by
    rw [starts_cons, starts_cons]
    rcases head_bare r with e | ⟨x, rfl, e⟩
    · rw [e]
    · have : c ≠ '/' := fun hc => h ⟨hc, rfl⟩
      simp [this]
  have h2 : startsComment (c :: r) = true → (bare false r).head? = r.head? := by
    intro hs
    rcases head_bare r with e | ⟨x, rfl, e⟩
    · exact e
    · rw [starts_cons] at hs
      simp only [Bool.and_eq_true, beq_iff_eq] at hs
      exact absurd ⟨hs.1, rfl⟩ h
  have h3 : (!startsComment (bare false r) && (bare false r).head?.any punctChar) =
      (!startsComment r && r.head?.any punctChar) := by
    cases r with
    | nil => rfl
    | cons d r =>
      by_cases hd : d = '/' ∧ r.head? = some '/'
      · obtain ⟨rfl, hd⟩ := hd
        cases r with
        | nil => cases hd
        | cons e r =>
          cases hd
          have : bare false ('/' :: '/' :: r) = ' ' :: ' ' :: bare true r := by simp [bare]
          rw [this]
          have a : punctChar ' ' = false := by decide
          have b : startsComment ('/' :: '/' :: r) = true := rfl
          simp [a, b]
      · rw [lineComment hd]
        have : startsComment (d :: bare false r) = startsComment (d :: r) := by
          rw [starts_cons, starts_cons]
          rcases head_bare r with e | ⟨x, rfl, e⟩
          · rw [e]
          · have : d ≠ '/' := fun hc => hd ⟨hc, rfl⟩
            simp [this]
        rw [this]
        rfl
  unfold lexFresh
  rw [h1, h3]
  by_cases hs : startsComment (c :: r) = true
  · rw [h2 hs]
  · simp [hs]

/-- Nothing or a word has been begun. -/
def Open : Pending → Prop
  | .none => True
  | .word _ _ => True
  | _ => False

theorem fresh_open (p : Place) {c : Char} {r : Str} (h : ¬(c = '/' ∧ r.head? = some '/')) (h1 : c ≠ '"') (h2 : c ≠ '\'')
    {out : List Raw} {pend : Pending} (hf : lexFresh C p c r = some (out, pend)) : Open pend := by
  unfold lexFresh at hf
  split at hf
  · cases hf; trivial
  split at hf
  · cases hf; trivial
  split at hf
  · rename_i hs
    rw [starts_cons] at hs
    simp only [Bool.and_eq_true, beq_iff_eq] at hs
    have : r.head? ≠ some '/' := fun e => h ⟨hs.1, e⟩
    rw [if_neg this] at hf
    cases hf
  · split at hf
    · cases hf; trivial
    · cases hf; trivial
    · split at hf
      · cases hf; trivial
      · cases hf

theorem step_bare (p : Place) {c : Char} {r : Str} (h : ¬(c = '/' ∧ r.head? = some '/')) {pend : Pending} (ho : Open pend) :
    lexStep C p c (bare false r) pend = lexStep C p c r pend := by
  cases pend with
  | none => exact fresh_bare C p h
  | word start text => rw [lexStep, lexStep, fresh_bare C p h]
  | quote => exact ho.elim
  | comment => exact ho.elim

theorem step_open (p : Place) {c : Char} {r : Str} (h : ¬(c = '/' ∧ r.head? = some '/')) (h1 : c ≠ '"') (h2 : c ≠ '\'')
    {pend : Pending} (ho : Open pend) {out : List Raw} {pend' : Pending}
    (hf : lexStep C p c r pend = some (out, pend')) : Open pend' := by
  cases pend with
  | none => exact fresh_open C p h h1 h2 hf
  | word start text =>
    rw [lexStep] at hf
    split at hf
    · cases hf; trivial
    split at hf
    · cases hf
    · cases hw : wordToken C start p text with
      | none => rw [hw] at hf; cases hf
      | some w =>
        rw [hw] at hf
        cases hx : lexFresh C p c r with
        | none => simp [hx] at hf
        | some o =>
          simp only [hx, Option.bind_eq_bind, Option.bind_some, Option.some.injEq, Prod.mk.injEq] at hf
          exact hf.2 ▸ fresh_open C p h h1 h2 hx
  | quote => exact ho.elim
  | comment => exact ho.elim

theorem opening_step (p : Place) (r : Str) {pend : Pending} (ho : Open pend) :
    ∃ o : Option (List Raw), lexStep C p '/' ('/' :: r) pend = o.map (fun w => (w, .comment 1)) ∧
      ∀ q : Str, lexStep C p ' ' q pend = o.map (fun w => (w, .none)) := by
  have h1 : lexFresh C p '/' ('/' :: r) = some ([], .comment 1) := rfl
  have h2 : ∀ q : Str, lexFresh C p ' ' q = some ([], .none) := fun q => rfl
  cases pend with
  | none => exact ⟨some [], by simp [lexStep, h1], fun q => by simp [lexStep, h2]⟩
  | word start text =>
    have a1 : wordChar '/' = false := by decide
    have a2 : wordChar ' ' = false := by decide
    refine ⟨(wordToken C start p text).map (fun w => [w]), ?_, fun q => ?_⟩
    · rw [lexStep, h1]
      cases wordToken C start p text <;> simp [a1]
    · rw [lexStep, h2]
      cases wordToken C start p text <;> simp [a2]
  | quote => exact ho.elim
  | comment => exact ho.elim

/-- Comments are read as spaces: by length of the text, in a comment and outside. -/
theorem lex_bare (k : Nat) : ∀ s : Str, s.length ≤ k →
    (∀ p pend, Open pend → undocumented false s = true → '"' ∉ bare false s → '\'' ∉ bare false s →
      lexFrom C p pend (bare false s) = lexFrom C p pend s) ∧
    (∀ p p' n, p'.line = p.line → p'.offset = p.offset → 2 ≤ n → (n = 2 → s.head? ≠ some '/' ∧ s.head? ≠ some '!') →
      undocumented true s = true → '"' ∉ bare true s → '\'' ∉ bare true s →
      lexFrom C p' .none (bare true s) = lexFrom C p (.comment n) s) := by
  induction k with
  | zero =>
    intro s hs
    rw [Nat.le_zero, List.length_eq_zero_iff] at hs
    subst hs
    exact ⟨fun p pend _ _ _ _ => rfl, fun p p' n _ _ _ _ _ _ _ => rfl⟩
  | succ k ih =>
    intro s hs
    cases s with
    | nil => exact ⟨fun p pend _ _ _ _ => rfl, fun p p' n _ _ _ _ _ _ _ => rfl⟩
    | cons c r =>
      have hr : r.length ≤ k := by simpa using hs
      refine ⟨fun p pend ho hu hq hq' => ?_, fun p p' n hl hoff hn hd hu hq hq' => ?_⟩
      · by_cases hc : c = '/' ∧ r.head? = some '/'
        · obtain ⟨rfl, hc⟩ := hc
          cases r with
          | nil => cases hc
          | cons d r =>
            cases hc
            have hb : bare false ('/' :: '/' :: r) = ' ' :: ' ' :: bare true r := by simp [bare]
            rw [hb] at hq hq' ⊢
            have hu : (r.head? != some '/' && r.head? != some '!' && undocumented true r) = true := by
              simpa [undocumented] using hu
            simp only [Bool.and_eq_true, bne_iff_ne] at hu
            obtain ⟨o, h1, h2⟩ := opening_step C p r ho
            rw [lexFrom, lexFrom, h1, h2]
            cases o with
            | none => rfl
            | some w =>
              have hc2 : lexFrom C (p.next '/') (.comment 1) ('/' :: r) =
                  lexFrom C ((p.next '/').next '/') (.comment 2) r := by
                rw [lexFrom]
                simp [lexStep]
              have := ((ih r (by simp at hr; omega)).2 ((p.next '/').next '/') ((p.next ' ').next ' ') 2 rfl rfl
                (Nat.le_refl 2) (fun _ => hu.1) hu.2 (fun h => hq (by simp [h])) (fun h => hq' (by simp [h])))
              simp only [Option.map_some, Option.bind_eq_bind, Option.bind_some]
              rw [hc2, lex_space, this]
        · have hb := lineComment hc
          rw [hb] at hq hq' ⊢
          have hu : undocumented false r = true := by
            cases r with
            | nil => rfl
            | cons d r =>
              rw [undocumented, if_neg (by simpa using hc)] at hu
              exact hu
          rw [lexFrom, lexFrom, step_bare C p hc ho]
          cases hstep : lexStep C p c r pend with
          | none => rfl
          | some o =>
            obtain ⟨out, pend'⟩ := o
            have := (ih r hr).1 (p.next c) pend' (step_open C p hc (fun e => hq (by simp [e])) (fun e => hq' (by simp [e])) ho hstep)
              hu (fun h => hq (by simp [h])) (fun h => hq' (by simp [h]))
            simp only [Option.bind_eq_bind, Option.bind_some]
            rw [this]
      · by_cases hc : c = '\n'
        · subst hc
          have hb : bare true ('\n' :: r) = '\n' :: bare false r := by simp [bare]
          have hs : lexFrom C p (.comment n) ('\n' :: r) = lexFrom C (p.next '\n') .none r := by
            rw [lexFrom]
            simp [lexStep]
          rw [hb] at hq hq' ⊢
          rw [hs, lex_break, next_line, next_line, hl, hoff]
          exact (ih r hr).1 _ .none trivial (by simpa [undocumented] using hu) (fun h => hq (by simp [h]))
            (fun h => hq' (by simp [h]))
        · have hb : bare true (c :: r) = List.replicate c.utf8Size ' ' ++ bare true r := by simp [bare, hc]
          have hs : lexFrom C p (.comment n) (c :: r) = lexFrom C (p.next c) (.comment (n + 1)) r := by
            have : ¬(n = 2 ∧ (c = '/' ∨ c = '!')) := by
              rintro ⟨e, e' | e'⟩
              · exact (hd e).1 (by simp [e'])
              · exact (hd e).2 (by simp [e'])
            rw [lexFrom]
            simp [lexStep, hc, this]
          rw [hb] at hq hq' ⊢
          obtain ⟨q, q1, q2, q3⟩ := lex_spaces C c.utf8Size p' (bare true r)
          rw [q3, hs]
          refine (ih r hr).2 (p.next c) q (n + 1) ?_ ?_ (by omega) (fun h => absurd h (by omega))
            (by rw [undocumented, show (c != '\n') = true by simpa using hc] at hu; exact hu) (fun h => hq (by simp [h])) (fun h => hq' (by simp [h]))
          · simp [q1, hl, Place.next, hc]
          · simp [q2, hoff, Place.next, hc]

/-- Lines one by one. -/
theorem bare_break (r : Str) : ∀ (l : Str) (b : Bool), '\n' ∉ l → bare b (l ++ '\n' :: r) = bare b l ++ '\n' :: bare false r
  | [], true, _ => by simp [bare]
  | [], false, _ => by
    rw [List.nil_append, lineComment (by simp)]
    rfl
  | c :: l, true, h => by
    simp only [List.mem_cons, not_or] at h
    rw [List.cons_append, bare, bare, if_neg (Ne.symm h.1), if_neg (Ne.symm h.1), bare_break r l true h.2, List.append_assoc]
  | [c], false, h => by
    simp only [List.mem_cons, not_or] at h
    rw [List.cons_append, List.nil_append, lineComment (by simp), lineComment (by simp)]
    rfl
  | c :: d :: l, false, h => by
    simp only [List.mem_cons, not_or] at h
    rw [List.cons_append, List.cons_append, bare, bare]
    split
    · rw [bare_break r l true h.2.2]; rfl
    · have := bare_break r (d :: l) false (by simp only [List.mem_cons, not_or]; exact h.2)
      rw [List.cons_append] at this
      rw [this]
      rfl

theorem bare_textOf : ∀ ls : List Str, (∀ l ∈ ls, '\n' ∉ l) → bare false (textOf ls) = textOf (ls.map (bare false))
  | [], _ => rfl
  | [l], _ => rfl
  | l :: k :: ls, h => by
    have e : textOf (l :: k :: ls) = l ++ '\n' :: textOf (k :: ls) := rfl
    rw [e, bare_break _ _ _ (h l (by simp)), bare_textOf (k :: ls) (fun m hm => h m (List.mem_cons_of_mem _ hm))]
    rfl

theorem bare_noBreak : ∀ (l : Str) (b : Bool), '\n' ∉ l → '\n' ∉ bare b l
  | [], _, _ => by simp [bare]
  | c :: l, true, h => by
    simp only [List.mem_cons, not_or] at h
    rw [bare, if_neg (Ne.symm h.1), List.mem_append, not_or]
    exact ⟨fun hm => by simpa using List.eq_of_mem_replicate hm, bare_noBreak l true h.2⟩
  | [c], false, h => h
  | c :: d :: l, false, h => by
    rw [bare]
    simp only [List.mem_cons, not_or] at h
    split
    · simpa using bare_noBreak l true h.2.2
    · have := bare_noBreak (d :: l) false (by simp only [List.mem_cons, not_or]; exact h.2)
      simp [h.1, this]

end Genco.Proofs.TextFile
