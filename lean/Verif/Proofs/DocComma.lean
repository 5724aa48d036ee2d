import Verif.Proofs.DocHoles

/-!
# Templates in source text: text in front of a comma
-/

set_option autoImplicit false

namespace Genco.Proofs.DocFile

open Genco Macro Spec Spec.Text Spec.MacroFile Spec.Doc Genco.Proofs Genco.Proofs.TextFile

/-- What may follow the text: no token, or a comma if the text does not end with a punctuation. -/
def Soft (s r : Str) : Prop := Halt r ∨ (r.head? = some ',' ∧ s.getLast?.any punctChar = false)

theorem Soft.tail {c : Char} {s r : Str} (h : Soft (c :: s) r) : Soft s r := by
  rcases h with h | ⟨h1, h2⟩
  · exact .inl h
  · refine .inr ⟨h1, ?_⟩
    cases s with
    | nil => rfl
    | cons d s => rwa [List.getLast?_cons_cons] at h2

theorem comment_comma (s r : Str) : startsComment (s ++ ',' :: r) = startsComment s := by
  rcases s with _ | ⟨a, _ | ⟨b, s⟩⟩
  · rfl
  · rw [List.cons_append, List.nil_append]
    unfold startsComment
    split <;> simp_all
  · simp only [List.cons_append]
    unfold startsComment
    split
    · rename_i e; cases e; rfl
    · rename_i e; cases e; rfl
    · rename_i h1 h2
      split
      · rename_i e; cases e; exact absurd rfl (h1 _)
      · rename_i e; cases e; exact absurd rfl (h2 _)
      · rfl

section

variable (C : Compiler)

theorem fresh_comma (p : Place) (c : Char) (s r : Str) (h : (c :: s).getLast?.any punctChar = false) :
    lexFresh C p c (s ++ ',' :: r) = lexFresh C p c s := by
  have h1 : startsComment (c :: (s ++ ',' :: r)) = startsComment (c :: s) := comment_comma (c :: s) r
  cases s with
  | nil =>
    have hc : punctChar c = false := h
    have h2 : startsComment (c :: ([] ++ ',' :: r)) = false := by rw [h1]; unfold startsComment; split <;> simp_all
    simp only [lexFresh, h2, show startsComment [c] = false by rw [← h1, h2], hc, Bool.false_eq_true, if_false]
  | cons d s =>
    have h2 : startsComment (d :: s ++ ',' :: r) = startsComment (d :: s) := comment_comma (d :: s) r
    have h3 : (d :: s ++ ',' :: r).head? = (d :: s).head? := rfl
    simp only [lexFresh, h1, h2, h3]

theorem step_soft {s r : Str} {c : Char} (h : Soft (c :: s) r) (p : Place) (pend : Pending) :
    lexStep C p c (s ++ r) pend = lexStep C p c s pend := by
  rcases h with h | ⟨h1, h2⟩
  · exact step_append C h p c s pend
  · cases r with
    | nil => cases h1
    | cons d r =>
      cases h1
      cases pend with
      | none => exact fresh_comma C p c s r h2
      | word start text => simp only [lexStep, fresh_comma C p c s r h2]
      | quote start ch esc value text =>
        have hw : (s ++ ',' :: r).head?.any wordChar = s.head?.any wordChar := by cases s <;> rfl
        cases ch <;> cases esc <;> simp only [lexStep, hw]
      | comment n => rfl

/-- The text is read in the same way whatever follows. -/
theorem lex_soft (s : Str) : ∀ (p : Place) (pend : Pending), ∃ o : Option (List Raw × Pending), ∀ r, Soft s r →
    lexFrom C p pend (s ++ r) = o.bind (fun x => (lexFrom C (go p s) x.2 r).map (x.1 ++ ·)) := by
  induction s with
  | nil => intro p pend; exact ⟨some ([], pend), fun r _ => by show lexFrom C p pend r = (lexFrom C p pend r).map _; simp⟩
  | cons c s ih =>
    intro p pend
    cases hs : lexStep C p c s pend with
    | none => exact ⟨none, fun r hr => by rw [List.cons_append, lexFrom, step_soft C hr, hs]; rfl⟩
    | some x =>
      obtain ⟨o, ho⟩ := ih (p.next c) x.2
      refine ⟨o.map (fun y => (x.1 ++ y.1, y.2)), fun r hr => ?_⟩
      rw [List.cons_append, lexFrom, step_soft C hr, hs]
      simp only [Option.bind_eq_bind, Option.bind_some]
      rw [ho r hr.tail]
      cases o with
      | none => rfl
      | some y =>
        show Option.bind (Option.map _ _) _ = Option.map _ _
        show Option.bind (Option.map _ (lexFrom C (go (p.next c) s) y.2 r)) _ = Option.map _ (lexFrom C (go (p.next c) s) y.2 r)
        cases lexFrom C (go (p.next c) s) y.2 r with
        | none => rfl
        | some z => simp

variable {C}

/-- Text that is read in front of no token is read in front of a comma, too. -/
theorem ReadsAs.soft {p : Place} {s : Str} {ts : List TT} (h : ReadsAs C p s Halt ts) (hs : s.getLast?.any punctChar = false) :
    ReadsAs C p s (fun r => Halt r ∨ r.head? = some ',') ts := by
  obtain ⟨rs, hg, hr⟩ := h
  obtain ⟨o, ho⟩ := lex_soft C s p .none
  refine ⟨rs, hg, fun r h => ?_⟩
  rcases h with h | h
  · exact hr r h
  unfold Runs
  have n1 := hr [] halt_nil
  have n2 := hr [')'] (halt_close [])
  unfold Runs at n1 n2
  rw [ho [] (.inl halt_nil)] at n1
  rw [ho [')'] (.inl (halt_close []))] at n2
  rw [ho r (.inr ⟨h, hs⟩)]
  cases r with
  | nil => cases h
  | cons d r =>
    cases h
    cases o with
    | none => cases n1
    | some x =>
      obtain ⟨out, pend⟩ := x
      cases pend with
      | none =>
        have : out = rs := by simpa [lexFrom] using n1
        subst this
        rfl
      | word start text =>
        have e : ∀ q, lexStep C q ',' r (.word start text) = (wordToken C start q text).bind (fun w =>
            (lexFresh C q ',' r).map (fun o => (w :: o.1, o.2))) := by
          intro q
          rw [lexStep, if_neg (by decide), if_neg (by decide)]
          cases wordToken C start q text with
          | none => rfl
          | some w => cases lexFresh C q ',' r <;> rfl
        have n1' : (wordToken C start (go p s) text).map (fun w => out ++ [w]) = some rs := by
          simpa [lexFrom] using n1
        cases hw : wordToken C start (go p s) text with
        | none => rw [hw] at n1'; cases n1'
        | some w =>
          rw [hw] at n1'
          have : out ++ [w] = rs := by simpa using n1'
          subst this
          show Option.map _ (lexFrom C (go p s) (.word start text) (',' :: r)) = _
          rw [lexFrom, e, hw, lexFrom, lexStep]
          simp only [Option.bind_some]
          cases lexFresh C (go p s) ',' r with
          | none => rfl
          | some o =>
            simp only [Option.bind_eq_bind, Option.map_some, Option.bind_some]
            cases lexFrom C ((go p s).next ',') o.2 r with
            | none => rfl
            | some z => simp
      | quote start ch esc value text => simp [lexFrom] at n1
      | comment n =>
        have h1 : out = rs := by simpa [lexFrom] using n1
        subst h1
        have h2 : lexFrom C (go p s) .none [')'] = some [.closing ((go p s).next ')') .parenthesis] := rfl
        rw [h2] at n2
        simp only [Option.bind_some, lexFrom, lexStep] at n2
        split at n2 <;> simp at n2

end

end Genco.Proofs.DocFile
