import Verif.Proofs.Advice

/-!
# Layout errors of lines
-/

set_option autoImplicit false

namespace Genco.Macro

open Spec Spec.MacroFile Spec.Advice

variable {ι E : Type}

/-- A line may begin at a column, below lines at the columns `past`. -/
def Fits (c : Nat) : List Nat → Prop
  | [] => True
  | p :: past => Legal c p past ∨ Falls c p past

/-- Every line may begin where it does. -/
def KeepsTo : List Nat → List SrcLine → Prop
  | _, [] => True
  | past, l :: ls => Fits l.column past ∧ KeepsTo (l.column :: past) ls

theorem keeps_append (a b : List SrcLine) : ∀ past, KeepsTo past (a ++ b) ↔
    KeepsTo past a ∧ KeepsTo ((a.map (·.column)).reverse ++ past) b := by
  induction a with
  | nil => intro past; exact ⟨fun h => ⟨trivial, h⟩, fun h => h.2⟩
  | cons l a ih =>
    intro past
    rw [List.cons_append, KeepsTo, KeepsTo, ih, List.map_cons, List.reverse_cons, List.append_assoc, and_assoc]
    rfl

theorem not_keeps (ls : List SrcLine) : ∀ past, ¬ KeepsTo past ls → ∃ a l b, ls = a ++ l :: b ∧ KeepsTo past a ∧
    ¬ Fits l.column ((a.map (·.column)).reverse ++ past) := by
  induction ls with
  | nil => intro past h; exact absurd trivial h
  | cons l ls ih =>
    intro past h
    by_cases hl : Fits l.column past
    · obtain ⟨a, l', b, h1, h2, h3⟩ := ih (l.column :: past) (fun h' => h ⟨hl, h'⟩)
      refine ⟨l :: a, l', b, by rw [h1]; rfl, ⟨hl, h2⟩, ?_⟩
      rw [List.map_cons, List.reverse_cons, List.append_assoc]
      exact h3
    · exact ⟨[], l, ls, rfl, trivial, hl⟩

/-- The number of the line behind lines. -/
def lineAfter (line : Nat) : List SrcLine → Nat
  | [] => line
  | l :: ls => lineAfter (line + l.above + 1) ls

theorem placeLines_append (a b : List SrcLine) : ∀ line,
    placeLines line (a ++ b) = placeLines line a ++ placeLines (lineAfter line a) b := by
  induction a with
  | nil => intro line; rfl
  | cons l a ih =>
    intro line
    rw [List.cons_append, placeLines, placeLines, ih, List.append_assoc]; rfl

theorem goes_rest (line : Nat) (r : List (Nat × Str)) : ∀ (stop : Pos) (column : Nat), stop.line = line →
    Goes stop (placeRest line column r) := by
  induction r with
  | nil => intro _ _ _; trivial
  | cons p r ih => intro stop column h; exact ⟨h, ih _ _ rfl⟩

/-- The tokens, last one first, are above the line. -/
def Above (line : Nat) : List Tok → Prop
  | [] => True
  | s :: _ => s.1.stop.line < line

theorem goes_columns (line : Nat) (r : List (Nat × Str)) : ∀ (column : Nat) (s : Tok) (seen : List Tok),
    s.1.stop.line = line → ∃ z w, (placeRest line column r).reverse ++ s :: seen = z :: w ∧
      lineColumns (z :: w) = lineColumns (s :: seen) ∧ z.1.stop.line = line := by
  induction r with
  | nil => intro column s seen h; exact ⟨s, seen, rfl, rfl, h⟩
  | cons p r ih =>
    intro column s seen h
    obtain ⟨z, w, h1, h2, h3⟩ := ih (column + p.1 + p.2.length)
      (⟨⟨line, column + p.1⟩, ⟨line, column + p.1 + p.2.length⟩⟩, p.2) (s :: seen) rfl
    refine ⟨z, w, ?_, ?_, h3⟩
    · rw [placeRest, List.reverse_cons, List.append_assoc]; exact h1
    · rw [h2, lineColumns, if_pos h]

/-- The first token of a line. -/
def firstTok (line : Nat) (l : SrcLine) : Tok :=
  (⟨⟨line, l.column⟩, ⟨line, l.column + l.first.length⟩⟩, l.first)

theorem line_columns (line : Nat) (l : SrcLine) (seen : List Tok) (h : Above line seen) :
    lineColumns ((placeLine line l).reverse ++ seen) = l.column :: lineColumns seen ∧
      Above (line + 1) ((placeLine line l).reverse ++ seen) := by
  obtain ⟨z, w, h1, h2, h3⟩ := goes_columns line l.rest (l.column + l.first.length) (firstTok line l) seen rfl
  have e : (placeLine line l).reverse ++ seen = z :: w := by
    rw [← h1, placeLine, List.reverse_cons, List.append_assoc]; rfl
  rw [e]
  refine ⟨?_, by show _ < _; omega⟩
  rw [h2]
  cases seen with
  | nil => rfl
  | cons s seen =>
    have h : s.1.stop.line < line := h
    rw [lineColumns, if_neg (by show ¬ _ = line; omega)]
    rfl

theorem follows_fits (t : Tok) (seen : List Tok) (h : Above t.1.start.line seen) :
    Follows t seen ↔ Fits t.1.start.column (lineColumns seen) := by
  cases seen with
  | nil => exact Iff.rfl
  | cons z r =>
    obtain ⟨q, qs, hq⟩ := lineColumns_cons z r
    rw [follows_later t z r q qs hq h, hq]
    exact Iff.rfl

theorem Above.mono {a b : Nat} {seen : List Tok} (h : Above a seen) (hb : a ≤ b) : Above b seen := by
  cases seen with
  | nil => trivial
  | cons s _ => exact Nat.lt_of_lt_of_le h hb

theorem follow_line (line : Nat) (l : SrcLine) (seen : List Tok) (h : Above line seen) :
    Follow seen (placeLine line l) ↔ Fits l.column (lineColumns seen) := by
  rw [placeLine, Follow, follows_fits _ _ h]
  exact ⟨fun h => h.1, fun h => ⟨h, follow_goes _ _ _ (goes_rest line _ _ _ rfl)⟩⟩

theorem lines_columns (ls : List SrcLine) : ∀ (line : Nat) (seen : List Tok), Above line seen →
    lineColumns ((placeLines line ls).reverse ++ seen) = (ls.map (·.column)).reverse ++ lineColumns seen ∧
      Above (lineAfter line ls) ((placeLines line ls).reverse ++ seen) := by
  induction ls with
  | nil => intro line seen h; exact ⟨rfl, h⟩
  | cons l ls ih =>
    intro line seen h
    obtain ⟨h1, h2⟩ := line_columns (line + l.above) l seen (h.mono (by omega))
    obtain ⟨h3, h4⟩ := ih (line + l.above + 1) _ h2
    rw [placeLines, List.reverse_append, List.append_assoc]
    refine ⟨?_, h4⟩
    rw [h3, h1, List.map_cons, List.reverse_cons, List.append_assoc]
    rfl

theorem follow_lines (ls : List SrcLine) : ∀ (line : Nat) (seen : List Tok), Above line seen →
    (Follow seen (placeLines line ls) ↔ KeepsTo (lineColumns seen) ls) := by
  induction ls with
  | nil => intro _ _ _; exact Iff.rfl
  | cons l ls ih =>
    intro line seen h
    have h' : Above (line + l.above) seen := h.mono (by omega)
    obtain ⟨h1, h2⟩ := line_columns (line + l.above) l seen h'
    rw [placeLines, follow_append, follow_line _ _ _ h', ih _ _ h2, h1]
    exact Iff.rfl

/-- There is one place only where tokens fail. -/
theorem fails_once (a : List Tok) : ∀ (seen a' : List Tok) (t t' : Tok) (b b' : List Tok),
    a ++ t :: b = a' ++ t' :: b' → Follow seen a → Follow seen a' → ¬ Follows t (a.reverse ++ seen) →
    ¬ Follows t' (a'.reverse ++ seen) → a = a' ∧ t = t' := by
  induction a with
  | nil =>
    intro seen a' t t' b b' h _ h2 h3 _
    cases a' with
    | nil => exact ⟨rfl, (List.cons.inj h).1⟩
    | cons u a' => exact absurd h2.1 ((List.cons.inj h).1 ▸ h3)
  | cons u a ih =>
    intro seen a' t t' b b' h h1 h2 h3 h4
    cases a' with
    | nil => exact absurd h1.1 ((List.cons.inj h).1 ▸ h4)
    | cons u' a' =>
      obtain ⟨rfl, h5⟩ := List.cons.inj h
      rw [List.reverse_cons, List.append_assoc] at h3 h4
      obtain ⟨h5, h6⟩ := ih (u :: seen) a' t t' b b' h5 h1.2 h2.2 h3 h4
      exact ⟨by rw [h5], h6⟩

theorem Refused.not_follows {seen : List Tok} {t : Tok} {x : Err} (h : Refused seen t x) : ¬ Follows t seen := by
  obtain ⟨z, r, q, qs, rfl, hl, h⟩ := h
  unfold Follows
  rw [hl]
  dsimp only
  rcases h with ⟨h1, -⟩ | ⟨h1, h2, c, -, hm, hn, -⟩
  · rintro (h | h)
    · omega
    · have := h.1; omega
  · rintro (h | ⟨-, (h | h | h) | h⟩)
    · omega
    · omega
    · omega
    · exact hn h
    · rw [h.2] at hm; cases hm

/-- The error for lines that do not keep to the columns above. -/
theorem lines_error (line : Nat) (a : List SrcLine) (l : SrcLine) (b : List SrcLine) (x : Err)
    (h : quote (ι := ι) (E := E) none (tokens (placeLines line (a ++ l :: b))) = .error x) (ha : KeepsTo [] a)
    (hl : ¬ Fits l.column (a.map (·.column)).reverse) :
    ∃ c, x = .indentation l.column c ∧ l.column ≠ c ∧ Fits c (a.map (·.column)).reverse := by
  obtain ⟨u, t, v, he, hf, hr⟩ := quote_error _ x h
  obtain ⟨h1, h2⟩ := lines_columns a line [] trivial
  rw [List.append_nil] at h1 h2
  rw [show lineColumns [] = [] from rfl, List.append_nil] at h1
  have h2' := h2.mono (Nat.le_add_right _ l.above)
  have e : placeLines line (a ++ l :: b) = placeLines line a ++ firstTok (lineAfter line a + l.above) l ::
      (placeRest (lineAfter line a + l.above) (l.column + l.first.length) l.rest ++
        placeLines (lineAfter line a + l.above + 1) b) := by
    rw [placeLines_append, placeLines, placeLine]; rfl
  rw [e] at he
  have hn : ¬ Follows (firstTok (lineAfter line a + l.above) l) (placeLines line a).reverse := by
    rw [follows_fits _ _ h2', h1]; exact hl
  obtain ⟨rfl, rfl⟩ := fails_once _ [] u _ t _ v he ((follow_lines a line [] trivial).2 ha) hf
    (by rwa [List.append_nil]) (by rw [List.append_nil]; exact hr.not_follows)
  obtain ⟨z, r, q, qs, hs, hq, ⟨h3, -⟩ | ⟨-, -, c, hx, hm, hn', -⟩⟩ := hr
  · rw [hs] at h2'
    have h2' : z.1.stop.line < lineAfter line a + l.above := h2'
    have h3 : lineAfter line a + l.above < z.1.stop.line := h3
    omega
  · refine ⟨c, hx, fun he => hn' (by show l.column ∈ _; rw [he]; exact hm), ?_⟩
    rw [← h1, hs, hq]
    exact .inl (.inr (.inr hm))

end Genco.Macro
