import Verif.Proofs.TextLines
import Verif.Proofs.MacroLines

/-!
# Plain source text: all lines
-/

set_option autoImplicit false

namespace Genco.Proofs.TextFile

open Genco Macro Spec.Text Spec.MacroFile

/-- The lines of tokens. `a` is the number of blank lines above. -/
def srcs : Nat → List Str → List SrcLine
  | _, [] => []
  | a, l :: ls =>
    match scan 0 [] l with
    | [] => srcs (a + 1) ls
    | (n, s) :: r => ⟨a, n, s, r⟩ :: srcs 0 ls

theorem line_foldl {l : Str} (h : '\n' ∉ l) : ∀ p : Place, (l.foldl Place.next p).line = p.line := by
  induction l with
  | nil => intro p; rfl
  | cons c l ih =>
    intro p
    simp only [List.mem_cons, not_or] at h
    rw [List.foldl_cons, ih h.2, Place.next, if_neg (fun e => h.1 e.symm)]

theorem toks_break (C : Compiler) (p : Place) (r : Str) :
    toks C p none ('\n' :: r) = toks C (p.next '\n') none r := by
  rw [toks_cons, if_neg (by decide), if_pos (by decide)]
  rfl

theorem placeLines_srcs (base a : Nat) (l : Str) (ls : List Str) :
    placeLines base (srcs a (l :: ls)) =
      placeRest (base + a) 0 (scan 0 [] l) ++
        (if scan 0 [] l = [] then placeLines base (srcs (a + 1) ls) else placeLines (base + a + 1) (srcs 0 ls)) := by
  rw [srcs]
  cases h : scan 0 [] l with
  | nil => simp [placeRest]
  | cons p r =>
    obtain ⟨n, s⟩ := p
    simp only [placeLines, placeLine, placeRest, Nat.zero_add]
    simp

theorem toks_lines (ls : List Str) : ∀ (l : Str) (line k off base a : Nat), line = base + a →
    (∀ m ∈ l :: ls, m.all holeChar = true ∧ '\n' ∉ m) →
    toks .nightly ⟨line, k, off⟩ none (Macro.textOf (l :: ls)) =
      placeLines base (srcs a ((List.replicate k ' ' ++ l) :: ls)) := by
  induction ls with
  | nil =>
    intro l line k off base a hb h
    obtain ⟨h1, h2⟩ := h l (by simp)
    have := toks_scan .nightly [] (.inl rfl) l ⟨line, k, off⟩ none line 0 k [] h1 (.inr h2) rfl (by simp [Compiler.pos])
    rw [List.append_nil] at this
    rw [Macro.textOf, this, placeLines_srcs, scan_spaces, Nat.zero_add, hb]
    simp [srcs, placeLines, toks, wordTok]
  | cons m ls ih =>
    intro l line k off base a hb h
    obtain ⟨h1, h2⟩ := h l (by simp)
    have := toks_scan .nightly ('\n' :: Macro.textOf (m :: ls)) (.inr ⟨_, rfl⟩) l ⟨line, k, off⟩ none line 0 k [] h1
      (.inr h2) rfl (by simp [Compiler.pos])
    have ht : Macro.textOf (l :: m :: ls) = l ++ '\n' :: Macro.textOf (m :: ls) := rfl
    rw [ht, this, placeLines_srcs, scan_spaces, Nat.zero_add, hb, toks_break]
    congr 1
    have hp : (List.foldl Place.next ⟨base + a, k, off⟩ l).next '\n' =
        ⟨base + a + 1, 0, (List.foldl Place.next ⟨base + a, k, off⟩ l).offset + 1⟩ := by
      rw [Place.next, if_pos rfl, line_foldl h2]
    rw [← hb] at hp
    rw [hb] at hp
    rw [hp]
    split
    · exact ih m _ 0 _ base (a + 1) (by omega) (fun x hx => h x (by simp_all))
    · exact ih m _ 0 _ (base + a + 1) 0 (by omega) (fun x hx => h x (by simp_all))

/-- The lines of tokens are the lines that are not blank. -/
theorem srcs_lines (cfg : Config) (ls : List Str) (h : ∀ l ∈ ls, '\n' ∉ l) : ∀ (a : Nat) (past : List Nat),
    outLines cfg past (srcs a ls) = rendered cfg past (decide (0 < a)) ls ∧
    (Offside past (srcs a ls) ↔ offside past ls = true) ∧ (∀ l ∈ srcs a ls, Inked l) ∧
    (srcs a ls = [] ↔ ∀ l ∈ ls, blank l = true) := by
  induction ls with
  | nil => intro a past; simp [srcs, outLines, rendered, Offside, offside]
  | cons l ls ih =>
    intro a past
    have hl := scan_line l (h l (by simp))
    have ih' := ih (fun m hm => h m (by simp [hm]))
    rcases hl with ⟨hb, hs⟩ | ⟨hb, s, r, hs, ht, hi, hj⟩
    · obtain ⟨i1, i2, i3, i4⟩ := ih' (a + 1) past
      simp only [srcs, hs]
      refine ⟨?_, ?_, i3, ?_⟩
      · rw [i1, rendered, if_pos hb]
        simp
      · rw [i2]
        cases past <;> simp [offside, hb]
      · rw [i4]
        simp [hb]
    · obtain ⟨i1, i2, i3, i4⟩ := ih' 0 (columnOf l :: past)
      simp only [srcs, hs]
      refine ⟨?_, ?_, ?_, ?_⟩
      · rw [outLines, i1, rendered, if_neg (show ¬ blank l = true by simp [hb]), srcText, ← ht]
        simp [joined]
      · cases past with
        | nil => simp [Offside, offside, hb, i2]
        | cons p past => simp [Offside, offside, hb, i2]
      · intro x hx
        rcases List.mem_cons.1 hx with rfl | hx
        · exact ⟨hi, hj⟩
        · exact i3 x hx
      · simp [hb]

/-! ## Which lines are accepted -/

/-- The columns of lines are allowed. -/
def Loose : List Nat → List SrcLine → Prop
  | _, [] => True
  | [], l :: ls => Loose [l.column] ls
  | p :: past, l :: ls => (Legal l.column p past ∨ Falls l.column p past) ∧ Loose (l.column :: p :: past) ls

theorem follow_rest (line : Nat) (ts : List Tok) (rest : List (Nat × Str)) : ∀ (column : Nat) (s : Tok) (seen : List Tok),
    s.1.stop.line = line → ∃ s' seen', s'.1.stop.line = line ∧ lineColumns (s' :: seen') = lineColumns (s :: seen) ∧
      (Follow (s :: seen) (placeRest line column rest ++ ts) ↔ Follow (s' :: seen') ts) := by
  induction rest with
  | nil => intro column s seen hs; exact ⟨s, seen, hs, rfl, Iff.rfl⟩
  | cons p rest ih =>
    intro column s seen hs
    obtain ⟨n, t⟩ := p
    rw [placeRest, List.cons_append, Follow]
    obtain ⟨s', seen', h1, h2, h3⟩ := ih (column + n + t.length)
      (⟨⟨line, column + n⟩, ⟨line, column + n + t.length⟩⟩, t) (s :: seen) rfl
    refine ⟨s', seen', h1, ?_, ?_⟩
    · rw [h2, lineColumns, if_pos hs]
    · rw [h3]
      refine and_iff_right ?_
      unfold Follows
      cases hc : lineColumns (s :: seen) with
      | nil => trivial
      | cons c past => exact .inl hs

theorem follow_lines (sl : List SrcLine) : ∀ (base p : Nat) (past : List Nat) (s : Tok) (seen : List Tok),
    lineColumns (s :: seen) = p :: past → s.1.stop.line < base →
    (Follow (s :: seen) (placeLines base sl) ↔ Loose (p :: past) sl) := by
  induction sl with
  | nil => intro base p past s seen _ _; exact Iff.rfl
  | cons l sl ih =>
    intro base p past s seen hc hs
    rw [placeLines, placeLine, List.cons_append, Follow, Loose]
    obtain ⟨s', seen', h1, h2, h3⟩ := follow_rest (base + l.above) (placeLines (base + l.above + 1) sl) l.rest
      (l.column + l.first.length)
      (⟨⟨base + l.above, l.column⟩, ⟨base + l.above, l.column + l.first.length⟩⟩, l.first) (s :: seen) rfl
    have hne : s.1.stop.line ≠ base + l.above := by omega
    have h2' : lineColumns (s' :: seen') = l.column :: p :: past := by
      rw [h2, lineColumns, if_neg hne, hc]
    rw [h3, ih _ _ _ _ _ h2' (by omega)]
    refine and_congr ?_ Iff.rfl
    unfold Follows
    rw [hc]
    simp only [hne, false_or]
    exact and_iff_right (by omega)

theorem follow_all (base : Nat) (sl : List SrcLine) : Follow [] (placeLines base sl) ↔ Loose [] sl := by
  cases sl with
  | nil => exact Iff.rfl
  | cons l sl =>
    rw [placeLines, placeLine, List.cons_append, Follow, Loose]
    obtain ⟨s', seen', h1, h2, h3⟩ := follow_rest (base + l.above) (placeLines (base + l.above + 1) sl) l.rest
      (l.column + l.first.length)
      (⟨⟨base + l.above, l.column⟩, ⟨base + l.above, l.column + l.first.length⟩⟩, l.first) [] rfl
    rw [h3, follow_lines sl _ l.column [] s' seen' h2 (by omega)]
    exact and_iff_right trivial

theorem srcs_loose (ls : List Str) (h : ∀ l ∈ ls, '\n' ∉ l) : ∀ (a : Nat) (past : List Nat),
    (Loose past (srcs a ls) ↔ allowed past ls = true) := by
  induction ls with
  | nil => intro a past; simp [srcs, Loose, allowed]
  | cons l ls ih =>
    intro a past
    have ih' := ih (fun m hm => h m (by simp [hm]))
    rcases scan_line l (h l (by simp)) with ⟨hb, hs⟩ | ⟨hb, s, r, hs, -⟩
    · simp only [srcs, hs]
      rw [ih']
      cases past <;> simp [allowed, hb]
    · simp only [srcs, hs]
      cases past with
      | nil => simp [Loose, allowed, hb, ih']
      | cons p past => simp [Loose, allowed, hb, ih']

/-- Line breaks are blanks like spaces. -/
theorem scan_oneLine (l : Str) : ∀ (g : Nat) (w : Str), scan g w (oneLine l) = scan g w l := by
  induction l with
  | nil => intro g w; rfl
  | cons c l ih =>
    intro g w
    have ho : oneLine (c :: l) = (if c = '\n' then ' ' else c) :: oneLine l := rfl
    rw [ho]
    split
    · rename_i hc
      subst hc
      simp [scan, ih, show nameChar ' ' = false by decide, show nameChar '\n' = false by decide,
        show blankChar ' ' = true by decide, show blankChar '\n' = true by decide]
    · simp [scan, ih]

theorem oneLine_break (l : Str) : '\n' ∉ oneLine l := by
  intro h
  obtain ⟨c, _, hc⟩ := List.mem_map.1 h
  split at hc
  · cases hc
  · contradiction

end Genco.Proofs.TextFile
