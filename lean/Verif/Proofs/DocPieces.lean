import Verif.Proofs.DocLex
import Verif.Proofs.DocLayout
import Verif.Proofs.Source

/-!
# Templates in source text: pieces in a row, and brackets
-/

set_option autoImplicit false

namespace Genco.Proofs.DocFile

open Genco Macro Spec Spec.Text Spec.MacroFile Spec.Doc Genco.Proofs.TextFile

section

variable (C : Compiler) (S : Syn)

/-- A piece of the text: a bracket, or tokens that are one node. -/
inductive Piece where
  | opening (p : Place) (d : Delimiter)
  | closing (q : Place) (d : Delimiter)
  | chunk (rs : List Raw) (ts : List TT) (n : Node (List TT))

def Piece.raws : Piece → List Raw
  | .opening p d => [.opening p d]
  | .closing q d => [.closing q d]
  | .chunk rs _ _ => rs

def Piece.node : Piece → Node (List TT)
  | .opening p d => .tree ⟨C.pos p, ⟨(C.pos p).line, (C.pos p).column + 1⟩⟩ [opener d]
  | .closing q d => .tree ⟨⟨(C.pos q).line, (C.pos q).column - 1⟩, C.pos q⟩ [closer d]
  | .chunk _ _ n => n

def Piece.bracket : Piece → Str
  | .opening _ d => [opener d]
  | .closing _ d => [closer d]
  | .chunk _ _ _ => []

/-- Tokens that are one node. -/
def Extends (ts : List TT) (n : Node (List TT)) : Prop :=
  ∀ us ms, Means S (.nodes us ms) → Means S (.nodes (ts ++ us) (n :: ms))

def Piece.Valid : Piece → Prop
  | .chunk rs ts n => Grows C rs ts ∧ Extends S ts n ∧ Template.flattenNode n = [n]
  | _ => True

/-- Pieces with brackets that match, as token trees. -/
def Balanced (F : List Piece) : Prop := ∃ ts ns, Grows C (F.flatMap Piece.raws) ts ∧ Means S (.nodes ts ns) ∧
  Template.flatten ns = F.map (Piece.node C)

variable {C S}

theorem balanced_nil : Balanced C S [] := ⟨[], [], grows_nil, .nil, rfl⟩

theorem balanced_chunk {rs ts n F} (h : (Piece.chunk rs ts n).Valid C S) (hF : Balanced C S F) :
    Balanced C S (.chunk rs ts n :: F) := by
  obtain ⟨ts', ns, h1, h2, h3⟩ := hF
  refine ⟨ts ++ ts', n :: ns, ?_, h.2.1 _ _ h2, ?_⟩
  · exact h.1.append h1
  · rw [Template.flatten, h.2.2, h3]; rfl

theorem balanced_group {p q d F G} (hF : Balanced C S F) (hG : Balanced C S G) :
    Balanced C S (.opening p d :: (F ++ .closing q d :: G)) := by
  obtain ⟨ts, ns, h1, h2, h3⟩ := hF
  obtain ⟨ts', ns', k1, k2, k3⟩ := hG
  obtain ⟨e1, e2, -⟩ := closer_opens d
  refine ⟨.group ⟨C.pos p, C.pos q⟩ d ts :: ts', .group ⟨C.pos p, C.pos q⟩ d ns :: ns', ?_, .group h2 k2, ?_⟩
  · have := (h1.group p q d).append k1
    simpa [Piece.raws] using this
  · rw [Template.flatten, Template.flattenNode, h3, k3]
    simp [Piece.node, e1, e2]

theorem pieces_split (k : Nat) : ∀ (F : List Piece), F.length ≤ k → (∀ f ∈ F, f.Valid C S) → ∀ due : List Delimiter,
    nested (due.map closer) (F.flatMap Piece.bracket) = true →
    match due with
    | [] => Balanced C S F
    | d :: due => ∃ A q B, F = A ++ .closing q d :: B ∧ Balanced C S A ∧
      nested (due.map closer) (B.flatMap Piece.bracket) = true := by
  induction k with
  | zero =>
    intro F hk _ due hn
    cases F with
    | cons f F => simp at hk
    | nil =>
      cases due with
      | nil => exact balanced_nil
      | cons d due => cases hn
  | succ k ih =>
    intro F hk hv due hn
    cases F with
    | nil =>
      cases due with
      | nil => exact balanced_nil
      | cons d due => cases hn
    | cons f F =>
      have hk' : F.length ≤ k := by simpa using hk
      have hv' : ∀ f ∈ F, f.Valid C S := fun g hg => hv g (by simp [hg])
      cases f with
      | chunk rs ts n =>
        have h := ih F hk' hv' due (by simpa [Piece.bracket] using hn)
        have h0 := hv _ (List.mem_cons_self)
        cases due with
        | nil => exact balanced_chunk h0 h
        | cons d due =>
          obtain ⟨A, q, B, rfl, h1, h2⟩ := h
          exact ⟨.chunk rs ts n :: A, q, B, rfl, balanced_chunk h0 h1, h2⟩
      | closing q d =>
        have hn : nested (due.map closer) (closer d :: F.flatMap Piece.bracket) = true := hn
        have e : closerOf (closer d) = none ∧ isCloser (closer d) = true := by cases d <;> decide
        rw [nested_cons, e.1] at hn
        simp only [e.2, if_true] at hn
        cases due with
        | nil => cases hn
        | cons d' due =>
          rw [List.map_cons] at hn
          simp only [Bool.and_eq_true, beq_iff_eq] at hn
          have : d = d' := by
            revert hn
            cases d <;> cases d' <;> simp [closer]
          subst this
          exact ⟨[], q, F, rfl, balanced_nil, hn.2⟩
      | opening p d =>
        have hn : nested (due.map closer) (opener d :: F.flatMap Piece.bracket) = true := hn
        have e : closerOf (opener d) = some (closer d) := by cases d <;> rfl
        rw [nested_cons, e] at hn
        obtain ⟨A, q, B, rfl, h1, h2⟩ := ih F hk' hv' (d :: due) hn
        have hB := ih B (by simp at hk'; omega) (fun f hf => hv' f (by simp [hf])) due h2
        cases due with
        | nil => exact balanced_group h1 hB
        | cons d' due =>
          obtain ⟨A', q', B', rfl, i1, i2⟩ := hB
          exact ⟨.opening p d :: (A ++ .closing q d :: A'), q', B', by simp, balanced_group h1 i1, i2⟩

/-- Brackets. -/
def isBracket (c : Char) : Bool := (closerOf c).isSome || isCloser c

theorem nested_brackets (s : Str) : ∀ due, nested due s = nested due (s.filter isBracket) := by
  induction s with
  | nil => intro due; rfl
  | cons c s ih =>
    intro due
    by_cases h : isBracket c = true
    · rw [List.filter_cons_of_pos h, nested_cons, nested_cons]
      cases closerOf c with
      | some e => exact ih _
      | none =>
        simp only
        split
        · cases due with
          | nil => rfl
          | cons e due => simp only; rw [ih]
        · exact ih _
    · rw [List.filter_cons_of_neg h, nested_cons, ← ih]
      simp only [isBracket, Bool.or_eq_true, not_or, Bool.not_eq_true] at h
      have h1 : closerOf c = none := by
        cases hc : closerOf c with
        | none => rfl
        | some e => rw [hc] at h; cases h.1
      rw [h1]
      simp [h.2]

/-- Pieces with brackets that match. -/
theorem pieces_balanced {F : List Piece} (hv : ∀ f ∈ F, f.Valid C S) {s : Str} (h : nested [] s = true)
    (hs : F.flatMap Piece.bracket = s.filter isBracket) : Balanced C S F :=
  pieces_split F.length F (Nat.le_refl _) hv [] (by rw [hs, List.map_nil, ← nested_brackets]; exact h)

end

end Genco.Proofs.DocFile
