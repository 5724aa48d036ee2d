import Verif.Proofs.MacroParse
import Verif.Model.Attributes
import Verif.Spec.Attributes

/-!
# Attributes of arms: proofs
-/

set_option autoImplicit false

namespace Genco.Spec.MacroFile

open Genco.Macro

theorem outer_nil (isMeta : List TT → Bool) : outer isMeta [] = some ([], []) := rfl

/-- What is left behind the attributes has none. -/
theorem outer_rest (isMeta : List TT → Bool) (ts : List TT) : ∀ as r, outer isMeta ts = some (as, r) →
    outer isMeta r = some ([], r) := by
  induction ts using outer.induct (isMeta := isMeta) with
  | case1 c j b content r hm ih =>
    intro as r' h
    rw [outer, if_pos hm] at h
    obtain ⟨p, hp, h⟩ := Option.map_eq_some_iff.1 h
    cases h
    exact ih _ _ hp
  | case2 c j b content r hm =>
    intro as r' h
    rw [outer, if_neg hm] at h
    cases h
  | case3 c j r hn =>
    intro as r' h
    rw [outer.eq_2 _ _ _ _ hn] at h
    cases h
  | case4 r h1 h2 =>
    intro as r' h
    have h3 := outer.eq_3 isMeta r h1 h2
    rw [h3] at h
    cases h
    exact h3

theorem attributes_of_outer (isMeta : List TT → Bool) (ts : List TT) : ∀ as, outer isMeta ts = some (as, []) →
    Attributes isMeta ts as := by
  induction ts using outer.induct (isMeta := isMeta) with
  | case1 c j b content r hm ih =>
    intro as h
    rw [outer, if_pos hm] at h
    obtain ⟨p, hp, h⟩ := Option.map_eq_some_iff.1 h
    cases p with | mk q s => cases h; exact .cons hm (ih _ hp)
  | case2 c j b content r hm =>
    intro as h
    rw [outer, if_neg hm] at h
    cases h
  | case3 c j r hn =>
    intro as h
    rw [outer.eq_2 _ _ _ _ hn] at h
    cases h
  | case4 r h1 h2 =>
    intro as h
    rw [outer.eq_3 isMeta r h1 h2] at h
    cases h
    exact .nil

theorem outer_of_attributes {isMeta : List TT → Bool} {ts : List TT} {as : List (List TT)}
    (h : Attributes isMeta ts as) : outer isMeta ts = some (as, []) := by
  induction h with
  | nil => rfl
  | cons hm _ ih => rw [outer, if_pos hm, ih]; rfl

/-- With attributes on the first. -/
def attrFirst (attr : List (List TT)) : List (Arm (List TT)) → List MatchArm
  | [] => []
  | a :: as => (attr, a) :: as.map (fun a => ([], a))

theorem onFirst_nil (as : List (Arm (List TT))) : attrFirst [] as = as.map (fun a => ([], a)) := by
  cases as <;> rfl

/-- What the loop gives, from the arms and what is behind the braces. -/
def loopResult (isMeta : List TT → Bool) (input : List TT) : List (Arm (List TT)) → Option (List MatchArm × List TT)
  | [] => some ([], input)
  | a :: as => (outer isMeta input).map (fun p => (attrFirst p.1 (a :: as), p.2))

theorem loopResult_rest {isMeta : List TT → Bool} {input : List TT} (h : outer isMeta input = some ([], input))
    (as : List (Arm (List TT))) : loopResult isMeta input as = some (as.map (fun a => ([], a)), input) := by
  cases as with
  | nil => rfl
  | cons a as => rw [loopResult, h, Option.map_some, onFirst_nil]

theorem armsWith_eq (S : Syn) (isMeta : List TT → Bool) (n : Nat) : ∀ input body,
    armsWith S isMeta n input body = (parseArms S n body).bind (loopResult isMeta input) := by
  induction n with
  | zero => intro input body; rw [armsWith, parseArms]; rfl
  | succ n ih =>
    intro input body
    cases body with
    | nil => rw [armsWith, parseArms]; rfl
    | cons t ts =>
      rw [armsWith.eq_3 _ _ _ _ _ (by simp), parseArms.eq_3 _ _ _ (by simp)]
      cases ho : outer isMeta input with
      | none =>
        cases hp : S.patMulti (t :: ts) with
        | none => rfl
        | some p =>
          cases hg : guardOf S p.2 with
          | none => simp [hg]
          | some g =>
            cases hf : fatArrow g.2 with
            | none => simp [hg, hf]
            | some r =>
              simp only [Option.bind_eq_bind, Option.bind_none, Option.bind_some, hg, hf]
              symm
              rw [Option.bind_eq_none_iff]
              intro as h
              split at h <;>
              · obtain ⟨_, _, h⟩ := bind_some h
                obtain ⟨_, _, h⟩ := bind_some h
                cases h
                rw [loopResult, ho]; rfl
      | some p =>
        obtain ⟨attr, input'⟩ := p
        have hr := outer_rest _ _ _ _ ho
        cases hp : S.patMulti (t :: ts) with
        | none => rfl
        | some p =>
          cases hg : guardOf S p.2 with
          | none => simp [hg]
          | some g =>
            cases hf : fatArrow g.2 with
            | none => simp [hg, hf]
            | some r =>
              simp only [Option.bind_eq_bind, Option.bind_some, hg, hf]
              have hi : ∀ b, armsWith S isMeta n input' b = (parseArms S n b).bind
                  (fun as => some (as.map (fun a => (([], a) : MatchArm)), input')) := fun b => by
                rw [ih]; congr 1; funext as; exact loopResult_rest hr as
              split
              · rename_i content r'
                cases hb : parseAll S n content with
                | none => simp [hb]
                | some block =>
                  cases ha : parseArms S n (dropComma r') with
                  | none => simp [hb, hi, ha]
                  | some as => simp [hb, hi, ha, loopResult, ho, attrFirst]
              · rename_i content r'
                cases hb : parseAll S n content with
                | none => simp [hb]
                | some block =>
                  cases ha : parseArms S n (dropComma r') with
                  | none => simp [hb, hi, ha]
                  | some as => simp [hb, hi, ha, loopResult, ho, attrFirst]
              · rename_i h1 h2
                split
                · exact absurd rfl (h1 _ _ _)
                · exact absurd rfl (h2 _ _ _)
                cases hb : parseInner S n true r with
                | none => simp
                | some q =>
                  cases ha : parseArms S n (dropComma q.2) with
                  | none => simp [hi, ha]
                  | some as => simp [hi, ha, loopResult, ho, attrFirst]

theorem arms_iff (S : Syn) (ts : List TT) (as) : (∃ n, parseArms S n ts = some as) ↔ Means S (.arms ts as) :=
  ⟨fun ⟨n, h⟩ => (sound S n).arms ts as h, fun h => accepted h⟩

theorem match_iff (S : Syn) (isMeta : List TT → Bool) (ts e : List TT) (as : List MatchArm) :
    (∃ n, parseMatch S isMeta n ts = some (e, as)) ↔
      ∃ c body rest attr bs, S.expr ts = some (e, .group c .brace body :: rest) ∧ Means S (.arms body bs) ∧
        Attributes isMeta rest attr ∧ (bs = [] → attr = []) ∧ as = attrFirst attr bs := by
  constructor
  · rintro ⟨n, h⟩
    obtain ⟨⟨e', r⟩, he, h⟩ := bind_some h
    dsimp only at h
    split at h
    · rename_i c body input
      rw [armsWith_eq] at h
      obtain ⟨⟨as', input'⟩, hl, h⟩ := bind_some h
      dsimp only at h
      split at h
      · cases h
        obtain ⟨bs, hb, hl⟩ := bind_some hl
        have hm := (arms_iff ..).1 ⟨n, hb⟩
        cases bs with
        | nil =>
          cases hl
          exact ⟨c, body, [], [], [], he, hm, .nil, fun _ => rfl, rfl⟩
        | cons b bs =>
          obtain ⟨p, hp, hl⟩ := Option.map_eq_some_iff.1 hl
          obtain ⟨attr, q⟩ := p
          cases hl
          exact ⟨c, body, input, attr, b :: bs, he, hm, attributes_of_outer _ _ _ hp, nofun, rfl⟩
      · cases h
    · cases h
  · rintro ⟨c, body, rest, attr, bs, he, hm, ha, hn, rfl⟩
    obtain ⟨n, hb⟩ := (arms_iff ..).2 hm
    refine ⟨n, ?_⟩
    rw [parseMatch, he]
    simp only [Option.bind_eq_bind, Option.bind_some, armsWith_eq, hb]
    cases bs with
    | nil =>
      cases hn rfl
      cases ha
      rfl
    | cons b bs => simp only [loopResult, outer_of_attributes ha, Option.map_some, Option.bind_some]

end Genco.Spec.MacroFile
