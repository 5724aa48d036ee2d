import Verif.Proofs.TextFile

/-!
# Rendered text as source text

What is rendered has the same words as the text, and the same levels.
-/

set_option autoImplicit false

namespace Genco.Proofs.TextFile

open Genco Macro Spec.Text Spec.MacroFile Spec

/-! ## Words -/

/-- The pieces between blanks; `w` is the piece that has been begun. -/
def pieces (w : Str) : Str → List Str
  | [] => if w = [] then [] else [w]
  | c :: r => if blankChar c then (if w = [] then [] else [w]) ++ pieces [] r else pieces (w ++ [c]) r

theorem pieces_append (b : Char) (hb : blankChar b = true) (s : Str) : ∀ (w a : Str),
    pieces w (a ++ b :: s) = pieces w a ++ pieces [] s := by
  intro w a
  induction a generalizing w with
  | nil => simp [pieces, hb]
  | cons c a ih =>
    rw [List.cons_append, pieces, pieces]
    split
    · rw [ih, List.append_assoc]
    · rw [ih]

theorem pieces_spaces (k : Nat) (s : Str) : pieces [] (List.replicate k ' ' ++ s) = pieces [] s := by
  induction k with
  | zero => rfl
  | succ k ih =>
    rw [List.replicate_succ, List.cons_append, pieces, if_pos (by decide), ih]
    rfl

theorem pieces_squeeze (s : Str) : ∀ w, pieces w (squeeze s) = pieces w s := by
  induction s with
  | nil => intro w; rfl
  | cons c r ih =>
    intro w
    rw [squeeze]
    split
    · rename_i h
      obtain ⟨rfl, h⟩ := h
      rw [ih]
      rcases h with rfl | h
      · simp [pieces, show blankChar ' ' = true by decide]
      · cases r with
        | nil => simp at h
        | cons d r =>
          simp only [List.head?_cons, Option.some.injEq] at h
          subst h
          simp [pieces, show blankChar ' ' = true by decide]
    · rw [pieces, pieces]
      split <;> rw [ih]

theorem pieces_tidy (l : Str) : pieces [] (tidy l) = pieces [] l := by
  conv => rhs; rw [split_line l]
  rw [pieces_spaces, tidy, pieces_squeeze]

theorem pieces_blank {l : Str} (h : blank l = true) : pieces [] l = [] := by
  rw [split_line l, (blank_iff l).1 h, pieces_spaces]
  rfl

theorem pieces_flatten (s : Str) : ∀ w, (pieces w s).flatten = w ++ s.filter (fun c => !blankChar c) := by
  induction s with
  | nil => intro w; rw [pieces]; split <;> simp_all
  | cons c r ih =>
    intro w
    rw [pieces]
    by_cases h : blankChar c = true
    · rw [if_pos h, List.flatten_append, ih, List.filter_cons_of_neg (by simp [h])]
      split <;> simp_all
    · rw [if_neg h, ih, List.filter_cons_of_pos (by simp [h])]
      simp

theorem pieces_textOf : ∀ ls : List Str, pieces [] (Macro.textOf ls) = ls.flatMap (pieces [])
  | [] => rfl
  | [l] => by simp [Macro.textOf]
  | l :: k :: ls => by
    rw [show Macro.textOf (l :: k :: ls) = l ++ '\n' :: Macro.textOf (k :: ls) from rfl,
      pieces_append _ (by decide), pieces_textOf (k :: ls), List.flatMap_cons (x := l)]

theorem blank_facts {c : Char} (h : blankChar c = true) : plainChar c = true ∧ nameChar c = false ∧
    closerOf c = none ∧ isCloser c = false ∧ c ≠ '/' ∧ c ≠ '*' ∧ c ≠ '#' := by
  simp only [blankChar, Bool.or_eq_true, beq_iff_eq] at h
  rcases h with rfl | rfl <;> decide

theorem nested_filter (s : Str) : ∀ due, nested due s = nested due (s.filter (fun c => !blankChar c)) := by
  induction s with
  | nil => intro due; rfl
  | cons c r ih =>
    intro due
    by_cases h : blankChar c = true
    · obtain ⟨-, -, h1, h2, -⟩ := blank_facts h
      rw [List.filter_cons_of_neg (by simp [h]), nested_cons, h1, h2, ← ih]
      rfl
    · rw [List.filter_cons_of_pos (by simp [h]), nested_cons, nested_cons]
      cases closerOf c with
      | some e => exact ih _
      | none =>
        simp only
        split
        · cases due with
          | nil => rfl
          | cons e due => simp only [← ih]
        · exact ih _

theorem all_filter (s : Str) : s.all plainChar = (s.filter (fun c => !blankChar c)).all plainChar := by
  induction s with
  | nil => rfl
  | cons c r ih =>
    by_cases h : blankChar c = true
    · rw [List.filter_cons_of_neg (by simp [h]), List.all_cons, (blank_facts h).1, Bool.true_and, ih]
    · rw [List.filter_cons_of_pos (by simp [h]), List.all_cons, List.all_cons, ih]

theorem apart_blank {b : Char} (hb : blankChar b = true) (r : Str) : ∀ w : Str,
    apart (w ++ b :: r) = (apart w && apart r)
  | [] => by
    obtain ⟨-, h1, -, -, h2, h3, h4⟩ := blank_facts hb
    cases r with
    | nil => rfl
    | cons c r => simp [apart, h1, h2]
  | [a] => by
    obtain ⟨-, h1, -, -, h2, h3, h4⟩ := blank_facts hb
    cases r with
    | nil => simp [apart, h2, h3, h4]
    | cons c r =>
      have e : ∀ d : Char, b ≠ d → (b == d) = false := fun d h => by simpa using h
      simp only [List.cons_append, List.nil_append, apart, e _ h2, e _ h3, e _ h4, h1]
      simp
  | a :: c :: w => by
    have ih := apart_blank hb r (c :: w)
    simp only [List.cons_append, apart] at ih ⊢
    rw [ih]
    simp only [Bool.and_assoc]

theorem numbers_blank {b : Char} (hb : blankChar b = true) (r : Str) (w : Str) : ∀ i,
    numbers i (w ++ b :: r) = (numbers i w && numbers none r) := by
  obtain ⟨-, h1, -⟩ := blank_facts hb
  induction w with
  | nil => intro i; cases i <;> simp [numbers, h1]
  | cons c w ih =>
    intro i
    cases i with
    | none =>
      simp only [List.cons_append, numbers]
      split <;> rw [ih]
    | some b =>
      simp only [List.cons_append, numbers]
      split
      · rw [ih, Bool.and_assoc]
      · rw [ih]

theorem pieces_all (f : Str → Bool) (h0 : f [] = true)
    (hf : ∀ b, blankChar b = true → ∀ w r, f (w ++ b :: r) = (f w && f r)) (s : Str) : ∀ w,
    f (w ++ s) = (pieces w s).all f := by
  induction s with
  | nil => intro w; rw [pieces]; split <;> simp_all
  | cons c r ih =>
    intro w
    rw [pieces]
    split
    · rename_i h
      rw [hf c h]
      have := ih []
      rw [List.nil_append] at this
      rw [List.all_append, this]
      split <;> simp_all
    · rw [← ih]
      simp

/-- What is plain depends on the words only. -/
theorem plain_pieces {s t : Str} (h : pieces [] s = pieces [] t) (hp : Plain s) : Plain t := by
  have hfl : s.filter (fun c => !blankChar c) = t.filter (fun c => !blankChar c) := by
    have := congrArg List.flatten h
    simpa [pieces_flatten] using this
  refine ⟨?_, ?_, ?_⟩
  · have := hp.chars
    rwa [all_filter, hfl, ← all_filter] at this
  · have h1 := pieces_all apart rfl (fun b hb w r => apart_blank hb r w)
    have h2 := h1 s []
    have h3 := h1 t []
    rw [List.nil_append] at h2 h3
    rw [h3, ← h, ← h2]
    exact hp.apart
  · have h1 := pieces_all (numbers none) rfl (fun b hb w r => numbers_blank hb r w none)
    have h2 := h1 s []
    have h3 := h1 t []
    rw [List.nil_append] at h2 h3
    rw [h3, ← h, ← h2]
    exact hp.numbers

theorem nested_pieces {s t : Str} (h : pieces [] s = pieces [] t) : nested [] s = nested [] t := by
  have hfl : s.filter (fun c => !blankChar c) = t.filter (fun c => !blankChar c) := by
    have := congrArg List.flatten h
    simpa [pieces_flatten] using this
  rw [nested_filter, hfl, ← nested_filter]

theorem marginText_space (n : Nat) (nl : Str) (d : Nat) : marginText ⟨.space n, nl⟩ d = List.replicate (d * n) ' ' := rfl

theorem rendered_pieces (n : Nat) (nl : Str) (ls : List Str) : ∀ past gap,
    (rendered ⟨.space n, nl⟩ past gap ls).flatMap (pieces []) = ls.flatMap (pieces []) := by
  induction ls with
  | nil => intro past gap; rfl
  | cons l ls ih =>
    intro past gap
    rw [rendered]
    split
    · rename_i h
      rw [ih, List.flatMap_cons, pieces_blank h, List.nil_append]
    · rw [List.flatMap_append, List.flatMap_cons, List.flatMap_cons, ih, marginText_space, pieces_spaces, pieces_tidy]
      split <;> simp [pieces]

/-! ## Levels -/

/-- The levels of lines at the columns. -/
def levels : List Nat → List Nat
  | [] => []
  | c :: past => depth c past :: levels past

/-- Levels grow by one at most. -/
def Gradual : List Nat → Prop
  | [] => True
  | [d] => d = 0
  | d :: e :: r => d ≤ e + 1 ∧ Gradual (e :: r)

theorem depth_step (c p : Nat) (past : List Nat) : depth c (p :: past) ≤ depth p past + 1 := by
  unfold depth
  rcases Nat.lt_trichotomy p c with h | rfl | h
  · rw [enclosing_in c p past h]; simp
  · rw [enclosing_same]; omega
  · rw [enclosing_out c p past h]
    exact Nat.le_succ_of_le (List.dropWhile_sublist _).length_le

theorem gradual_levels : ∀ past, Gradual (levels past)
  | [] => trivial
  | [_] => rfl
  | c :: p :: past => ⟨depth_step c p past, gradual_levels (p :: past)⟩

/-- The levels further out. -/
def below (n : Nat) : Nat → List Nat
  | 0 => []
  | d + 1 => d * n :: below n d

theorem below_length (n d : Nat) : (below n d).length = d := by
  induction d with
  | zero => rfl
  | succ d ih => rw [below, List.length_cons, ih]

theorem mem_below (n : Nat) {d e : Nat} (h : d < e) : d * n ∈ below n e := by
  induction e with
  | zero => omega
  | succ e ih =>
    rw [below]
    by_cases he : d = e
    · subst he; simp
    · exact List.mem_cons_of_mem _ (ih (by omega))

theorem enclosing_below (n : Nat) (hn : 0 < n) : ∀ (ds : List Nat) (d : Nat), Gradual ds →
    (ds = [] → d = 0) → (∀ e, ds.head? = some e → d ≤ e + 1) → enclosing (d * n) (ds.map (· * n)) = below n d
  | [], d, _, h, _ => by
    rw [h rfl]
    rfl
  | e :: r, d, hg, _, h => by
    have hd := h e rfl
    have hr : Gradual r := by
      cases r with
      | nil => trivial
      | cons x r => exact hg.2
    rw [List.map_cons, enclosing]
    by_cases hde : e < d
    · have hd' : d = e + 1 := by omega
      subst hd'
      rw [if_pos (Nat.mul_lt_mul_of_pos_right hde hn), below]
      congr 1
      refine enclosing_below n hn r e hr ?_ ?_
      · rintro rfl
        exact hg
      · intro x hx
        cases r with
        | nil => simp at hx
        | cons y r =>
          simp only [List.head?_cons, Option.some.injEq] at hx
          subst hx
          exact hg.1
    · rw [if_neg (by have := Nat.mul_le_mul_right n (Nat.le_of_not_lt hde); omega)]
      refine enclosing_below n hn r d hr ?_ ?_
      · rintro rfl
        have : e = 0 := hg
        omega
      · intro x hx
        cases r with
        | nil => simp at hx
        | cons y r =>
          simp only [List.head?_cons, Option.some.injEq] at hx
          subst hx
          have := hg.1
          omega

/-- The columns of lines that are rendered. -/
def columns (n : Nat) (past : List Nat) : List Nat := (levels past).map (· * n)

theorem depth_columns (n : Nat) (hn : 0 < n) (c : Nat) (past : List Nat) :
    depth (depth c past * n) (columns n past) = depth c past := by
  have h := enclosing_below n hn (levels past) (depth c past) (gradual_levels past) ?_ ?_
  · conv => lhs; rw [depth, columns, h, below_length]
  · intro h
    cases past with
    | nil => rfl
    | cons => cases h
  · intro e he
    cases past with
    | nil => cases he
    | cons p past =>
      simp only [levels, List.head?_cons, Option.some.injEq] at he
      subst he
      exact depth_step c p past

theorem legal_columns (n : Nat) (hn : 0 < n) (c p : Nat) (past : List Nat) (h : Legal c p past) :
    Legal (depth c (p :: past) * n) (depth p past * n) (columns n past) := by
  rcases Nat.lt_trichotomy p c with hpc | rfl | hpc
  · left
    rw [show depth c (p :: past) = depth p past + 1 by rw [depth, enclosing_in c p past hpc]; rfl]
    exact Nat.mul_lt_mul_of_pos_right (Nat.lt_succ_self _) hn
  · right; left
    rw [show depth p (p :: past) = depth p past by rw [depth, enclosing_same]; rfl]
  · right; right
    have hm : c ∈ enclosing p past := by
      rcases h with h | h | h
      · omega
      · omega
      · exact h
    have hlt : depth c (p :: past) < depth p past := by
      unfold depth
      rw [enclosing_out c p past hpc]
      by_contra hge
      have he := (List.dropWhile_sublist (c ≤ ·) (l := enclosing p past)).eq_of_length_le (by omega)
      cases hl : enclosing p past with
      | nil => rw [hl] at hm; simp at hm
      | cons a l =>
        have ha : c ≤ a := by
          rw [hl] at hm
          rcases List.mem_cons.1 hm with rfl | hm
          · exact Nat.le_refl _
          · have hs := enclosing_sorted p past
            rw [hl] at hs
            exact Nat.le_of_lt ((List.pairwise_cons.1 hs).1 c hm)
        rw [hl, List.dropWhile_cons_of_pos (by simpa using ha)] at he
        have := (List.dropWhile_sublist (c ≤ ·) (l := l)).length_le
        have := congrArg List.length he
        simp only [List.length_cons] at this
        omega
    have h := enclosing_below n hn (levels past) (depth p past) (gradual_levels past) ?_ ?_
    · rw [columns, h]
      exact mem_below n hlt
    · intro h
      cases past with
      | nil => rfl
      | cons => cases h
    · intro e he
      cases past with
      | nil => cases he
      | cons q past =>
        simp only [levels, List.head?_cons, Option.some.injEq] at he
        subst he
        exact depth_step p q past

/-! ## Lines -/

theorem dropWhile_head {l : Str} (h : blank l = false) : ∃ c r, l.dropWhile (· == ' ') = c :: r ∧ c ≠ ' ' := by
  cases hd : l.dropWhile (· == ' ') with
  | nil => rw [(blank_iff l).2 hd] at h; cases h
  | cons c r =>
    refine ⟨c, r, rfl, ?_⟩
    have := List.head?_dropWhile_not (· == ' ') l
    rw [hd] at this
    simpa using this

theorem squeeze_head {c : Char} (hc : c ≠ ' ') (r : Str) : squeeze (c :: r) = c :: squeeze r := by
  rw [squeeze, if_neg (by simp [hc])]

theorem squeeze_twice (r : Str) : squeeze (squeeze r) = squeeze r := by
  induction r with
  | nil => rfl
  | cons c r ih =>
    rw [squeeze]
    split
    · exact ih
    · rename_i h
      rw [squeeze, ih, if_neg]
      rintro ⟨rfl, h'⟩
      cases r with
      | nil => exact h ⟨rfl, .inl rfl⟩
      | cons d r =>
        have hd : d ≠ ' ' := fun e => h ⟨rfl, .inr (by rw [e]; rfl)⟩
        rw [squeeze_head hd] at h'
        simp [hd] at h'

theorem line_again (k : Nat) {l : Str} (h : blank l = false) :
    blank (List.replicate k ' ' ++ tidy l) = false ∧ columnOf (List.replicate k ' ' ++ tidy l) = k ∧
      tidy (List.replicate k ' ' ++ tidy l) = tidy l := by
  obtain ⟨c, r, hd, hc⟩ := dropWhile_head h
  have ht : tidy l = c :: squeeze r := by rw [tidy, hd, squeeze_head hc]
  have hdrop : (List.replicate k ' ' ++ tidy l).dropWhile (· == ' ') = tidy l := by
    rw [List.dropWhile_append_of_pos (by simp), ht, List.dropWhile_cons_of_neg (by simpa using hc)]
  refine ⟨?_, ?_, ?_⟩
  · rw [Bool.eq_false_iff, Ne, blank_iff, hdrop, ht]
    simp
  · rw [columnOf, List.takeWhile_append_of_pos (by simp), ht, List.takeWhile_cons_of_neg (by simpa using hc)]
    simp
  · conv => lhs; rw [tidy, hdrop, tidy, squeeze_twice]
    rfl

theorem offside_line (past : List Nat) {l : Str} (ls : List Str) (h : blank l = false) :
    offside past (l :: ls) = true ↔ (∀ p r, past = p :: r → Legal (columnOf l) p r) ∧
      offside (columnOf l :: past) ls = true := by
  rw [offside.eq_def]
  simp only [h, Bool.false_eq_true, if_false, Bool.and_eq_true]
  cases past with
  | nil => simp
  | cons p r =>
    simp only [decide_eq_true_eq, List.cons.injEq, and_imp]
    exact and_congr_left fun _ => ⟨fun h p r hp hr => hp ▸ hr ▸ h, fun h => h p r rfl rfl⟩

theorem offside_blank (past : List Nat) {l : Str} (ls : List Str) (h : blank l = true) :
    offside past (l :: ls) = offside past ls := by
  rw [offside.eq_def]
  simp [h]

theorem columns_cons (n c : Nat) (past : List Nat) : columns n (c :: past) = depth c past * n :: columns n past := rfl

theorem rendered_again (n : Nat) (hn : 0 < n) (nl : Str) (cfg : Config) (ls : List Str) : ∀ past gap,
    offside past ls = true →
    rendered cfg (columns n past) false (rendered ⟨.space n, nl⟩ past gap ls) = rendered cfg past gap ls ∧
      offside (columns n past) (rendered ⟨.space n, nl⟩ past gap ls) = true := by
  induction ls with
  | nil => intro past gap _; exact ⟨rfl, by rw [rendered, offside.eq_def]⟩
  | cons l ls ih =>
    intro past gap ho
    by_cases hb : blank l = true
    · rw [offside_blank past ls hb] at ho
      have := ih past true ho
      rw [rendered, if_pos hb, rendered, if_pos hb]
      exact this
    · have hb' : blank l = false := by simpa using hb
      obtain ⟨h1, h2⟩ := (offside_line past ls hb').1 ho
      obtain ⟨r1, r2⟩ := ih (columnOf l :: past) false h2
      obtain ⟨b1, b2, b3⟩ := line_again (depth (columnOf l) past * n) hb'
      rw [rendered, if_neg hb, marginText_space, rendered, if_neg hb]
      have hline : ∀ g, rendered cfg (columns n past) g
          ((List.replicate (depth (columnOf l) past * n) ' ' ++ tidy l) ::
            rendered ⟨.space n, nl⟩ (columnOf l :: past) false ls) =
          (if g ∧ past ≠ [] then [[]] else []) ++ (marginText cfg (depth (columnOf l) past) ++ tidy l) ::
            rendered cfg (columnOf l :: past) false ls := by
        intro g
        have hp : columns n past ≠ [] ↔ past ≠ [] := by cases past <;> simp [columns, levels]
        rw [rendered, b1, b2, b3, depth_columns n hn, ← columns_cons, r1]
        simp only [Bool.false_eq_true, if_false, hp]
      have hoff : offside (columns n past) ((List.replicate (depth (columnOf l) past * n) ' ' ++ tidy l) ::
            rendered ⟨.space n, nl⟩ (columnOf l :: past) false ls) = true := by
        rw [offside_line _ _ b1, b2]
        refine ⟨fun p r hp => ?_, r2⟩
        cases past with
        | nil => cases hp
        | cons q past =>
          rw [columns_cons, List.cons.injEq] at hp
          obtain ⟨rfl, rfl⟩ := hp
          exact legal_columns n hn _ q past (h1 q past rfl)
      by_cases hg : gap = true ∧ past ≠ []
      · rw [if_pos hg]
        refine ⟨?_, ?_⟩
        · rw [List.singleton_append, rendered, if_pos (show blank [] = true from rfl), hline true, if_pos ⟨rfl, hg.2⟩]
        · rw [List.singleton_append, offside_blank _ _ rfl]
          exact hoff
      · rw [if_neg hg]
        refine ⟨?_, hoff⟩
        rw [List.nil_append, hline false]
        simp

theorem rendered_break (n : Nat) (nl : Str) (ls : List Str) (h : ∀ l ∈ ls, '\n' ∉ l) : ∀ past gap,
    ∀ l ∈ rendered ⟨.space n, nl⟩ past gap ls, '\n' ∉ l := by
  have hs : ∀ s : Str, '\n' ∉ s → '\n' ∉ squeeze s := by
    intro s
    induction s with
    | nil => simp [squeeze]
    | cons c r ih =>
      intro h
      simp only [List.mem_cons, not_or] at h
      rw [squeeze]
      split
      · exact ih h.2
      · simp [h.1, ih h.2]
  induction ls with
  | nil => intro past gap l hl; simp [rendered] at hl
  | cons k ls ih =>
    intro past gap l hl
    have ih := ih (fun l hl => h l (by simp [hl]))
    rw [rendered] at hl
    split at hl
    · exact ih _ _ l hl
    · rw [List.mem_append, List.mem_cons] at hl
      rcases hl with hl | rfl | hl
      · split at hl <;> simp at hl
        simp [hl]
      · rw [marginText_space, List.mem_append, not_or]
        refine ⟨by simp, hs _ fun hm => h k (by simp) ?_⟩
        exact (List.dropWhile_sublist _).subset hm
      · exact ih _ _ l hl

theorem rendered_ink (cfg : Config) (ls : List Str) (h : ∃ l ∈ ls, blank l = false) : ∀ past gap,
    ∃ l ∈ rendered cfg past gap ls, blank l = false := by
  induction ls with
  | nil => simp at h
  | cons k ls ih =>
    intro past gap
    rw [rendered]
    split
    · rename_i hb
      refine ih ?_ _ _
      obtain ⟨l, hl, hl'⟩ := h
      rcases List.mem_cons.1 hl with rfl | hl
      · rw [hb] at hl'; cases hl'
      · exact ⟨l, hl, hl'⟩
    · rename_i hb
      refine ⟨marginText cfg (depth (columnOf k) past) ++ tidy k, by simp, ?_⟩
      have := (line_again 0 (l := k) (by simpa using hb)).1
      rw [blank, List.all_append]
      rw [blank, List.replicate_zero, List.nil_append] at this
      rw [this, Bool.and_false]

end Genco.Proofs.TextFile
