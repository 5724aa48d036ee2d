import Verif.Proofs.TextFile
import Verif.Proofs.TemplateRun
import Verif.Spec.Source

/-!
# Source text with interpolations
-/

set_option autoImplicit false

namespace Genco.Proofs.TextFile

open Genco Macro Spec Spec.Text Spec.MacroFile

/-! ## The parser -/

/-- A name: it starts with no digit. -/
def Name (n : Str) : Prop := ∃ c r, n = c :: r ∧ nameChar c = true ∧ c.isDigit = false

/-- Tokens in a row, and the same with every dollar put together with what follows. -/
inductive Merged (S : Syn) : List (Node (List TT)) → List (Node (List TT)) → Prop
  | nil : Merged S [] []
  | skip {cur s r out} : s ≠ ['$'] → Merged S r out → Merged S (.tree cur s :: r) (.tree cur s :: out)
  | name {a b n r out} : Name n → S.keyword n = false → Merged S r out →
    Merged S (.tree a ['$'] :: .tree b n :: r) (.eval (through a b) [.ident b n] :: out)
  | escape {a b r out} : Merged S r out →
    Merged S (.tree a ['$'] :: .tree b ['$'] :: r) (.escape (through a b) :: out)

theorem Merged.one {S : Syn} {cur s r out} (hs : s ≠ ['$']) (h : Merged S (.tree cur s :: r) out) :
    ∃ out', out = .tree cur s :: out' ∧ Merged S r out' := by
  cases h with
  | skip _ h => exact ⟨_, rfl, h⟩
  | name => exact absurd rfl hs
  | escape => exact absurd rfl hs

theorem Merged.two {S : Syn} {cur r out} (h : Merged S (.tree cur ['$'] :: r) out) :
    ∃ b n r', r = .tree b n :: r' ∧ ∃ out', Merged S r' out' ∧
      ((Name n ∧ S.keyword n = false ∧ out = .eval (through cur b) [.ident b n] :: out') ∨
        (n = ['$'] ∧ out = .escape (through cur b) :: out')) := by
  cases h with
  | skip hs _ => exact absurd rfl hs
  | name h1 h2 h => exact ⟨_, _, _, rfl, _, h, .inl ⟨h1, h2, rfl⟩⟩
  | escape h => exact ⟨_, _, _, rfl, _, h, .inr ⟨rfl, rfl⟩⟩

theorem not_name {c : Char} (h : nameChar c = false) : ¬ Name [c] := by
  rintro ⟨d, r, h1, h2, -⟩
  cases h1
  rw [h] at h2
  cases h2

theorem closer_opens (d : Delimiter) : Template.openChar d = opener d ∧ Template.closeChar d = closer d ∧
    [opener d] ≠ ['$'] ∧ [closer d] ≠ ['$'] ∧ ¬ Name [opener d] ∧ ¬ Name [closer d] := by
  cases d <;> exact ⟨rfl, rfl, by decide, by decide, not_name (by decide), not_name (by decide)⟩

/-- The parser puts the dollars together with what follows. `more` is what is behind the tokens. -/
theorem merged_means (S : Syn) (k : Nat) : ∀ (ts : List TT), sizeOf ts ≤ k → leaves ts = true →
    ∀ more, (more = [] ∨ ∃ cur d r, more = .tree cur [closer d] :: r) → ∀ out, Merged S (spelled ts ++ more) out →
    ∃ ns out', Means S (.nodes ts ns) ∧ Merged S more out' ∧ out = Template.flatten ns ++ out' := by
  induction k with
  | zero =>
    intro ts hk
    cases ts <;> simp at hk
  | succ k ih =>
    intro ts hk hl more hm out h
    cases ts with
    | nil => exact ⟨[], out, .nil, h, rfl⟩
    | cons t ts =>
      rw [leaves, Bool.and_eq_true] at hl
      have hts : sizeOf ts ≤ k := by simp at hk; omega
      have single : ∀ s, spelledOne t = [.tree t.cur s] → s ≠ ['$'] → wordOf t = some s →
          ∃ ns out', Means S (.nodes (t :: ts) ns) ∧ Merged S more out' ∧ out = Template.flatten ns ++ out' := by
        intro s h1 h2 h3
        rw [spelled, h1, List.append_assoc, List.singleton_append] at h
        obtain ⟨o, rfl, h'⟩ := h.one h2
        obtain ⟨ns, o', k1, k2, k3⟩ := ih ts hts hl.2 more hm o h'
        exact ⟨_, o', .word h3 k1, k2, by rw [k3]; rfl⟩
      cases t with
      | ident cur name =>
        refine single name rfl ?_ rfl
        rintro rfl
        revert hl
        simp [leavesIn, plainLeaf, show nameChar '$' = false by decide]
      | str => simp [leavesIn, plainLeaf] at hl
      | char => simp [leavesIn, plainLeaf] at hl
      | lit cur text =>
        refine single text rfl ?_ rfl
        rintro rfl
        revert hl
        simp [leavesIn, plainLeaf, show Char.isDigit '$' = false by decide]
      | group cur d content =>
        obtain ⟨e1, e2, e3, e4, -, -⟩ := closer_opens d
        have hc : sizeOf content ≤ k := by simp at hk; omega
        rw [spelled, spelledOne, List.append_assoc, List.cons_append, List.cons_append, List.append_assoc] at h
        obtain ⟨o, rfl, h'⟩ := h.one e3
        obtain ⟨ms, o1, k1, k2, rfl⟩ := ih content hc hl.1 _ (.inr ⟨_, d, _, rfl⟩) o h'
        obtain ⟨o2, rfl, h''⟩ := k2.one e4
        obtain ⟨ns, o', k1', k2', rfl⟩ := ih ts hts hl.2 more hm o2 h''
        refine ⟨_, o', .group k1 k1', k2', ?_⟩
        simp [Template.flatten, Template.flattenNode, e1, e2]
      | punct cur c j =>
        by_cases hc : c = '$'
        · subst hc
          rw [spelled, spelledOne, List.append_assoc, List.singleton_append] at h
          obtain ⟨b, n, r', hr, o, ho, hcase⟩ := h.two
          cases ts with
          | nil =>
            rw [spelled, List.nil_append] at hr
            rcases hm with rfl | ⟨cur', d, r, rfl⟩
            · cases hr
            · cases hr
              obtain ⟨-, -, -, e4, -, e6⟩ := closer_opens d
              rcases hcase with ⟨hn, -⟩ | ⟨hn, -⟩
              · exact absurd hn e6
              · exact absurd hn e4
          | cons t ts =>
            have hts' : sizeOf ts ≤ k := by simp at hts; omega
            rw [leaves, Bool.and_eq_true] at hl
            rw [spelled, List.append_assoc] at hr
            cases t with
            | ident b' n' =>
              rw [spelledOne, List.singleton_append] at hr
              cases hr
              obtain ⟨ns, o', k1, k2, rfl⟩ := ih ts hts' hl.2.2 more hm o ho
              rcases hcase with ⟨-, hk, rfl⟩ | ⟨rfl, -⟩
              · exact ⟨_, o', .name hk k1, k2, rfl⟩
              · have := hl.2.1
                simp [leavesIn, plainLeaf, show nameChar '$' = false by decide] at this
            | punct b' c' j' =>
              rw [spelledOne, List.singleton_append] at hr
              cases hr
              obtain ⟨ns, o', k1, k2, rfl⟩ := ih ts hts' hl.2.2 more hm o ho
              rcases hcase with ⟨hn, -⟩ | ⟨hn, rfl⟩
              · have := hl.2.1
                simp only [leavesIn, plainLeaf, Bool.not_eq_true'] at this
                exact absurd hn (not_name this)
              · cases hn
                exact ⟨_, o', .escape k1, k2, rfl⟩
            | str => have := hl.2.1; simp [leavesIn, plainLeaf] at this
            | char => have := hl.2.1; simp [leavesIn, plainLeaf] at this
            | lit b' text =>
              rw [spelledOne, List.singleton_append] at hr
              cases hr
              have := hl.2.1
              rcases hcase with ⟨⟨c, r, rfl, -, hd⟩, -⟩ | ⟨rfl, -⟩
              · simp [leavesIn, plainLeaf, hd] at this
              · simp [leavesIn, plainLeaf, show Char.isDigit '$' = false by decide] at this
            | group cur' d content =>
              rw [spelledOne, List.cons_append, List.cons_append] at hr
              cases hr
              obtain ⟨-, -, e3, -, e5, -⟩ := closer_opens d
              rcases hcase with ⟨hn, -⟩ | ⟨hn, -⟩
              · exact absurd hn e5
              · exact absurd hn e3
        · exact single [c] rfl (by simpa using hc) (by simp [wordOf, hc])

theorem merged_parses (S : Syn) {ts : List TT} {out} (hl : leaves ts = true) (h : Merged S (spelled ts) out) :
    ∃ ns, Parses S ts ns ∧ Template.flatten ns = out := by
  obtain ⟨ns, o, h1, h2, h3⟩ := merged_means S _ ts (Nat.le_refl _) hl [] (.inl rfl) out (by rwa [List.append_nil])
  cases h2
  exact ⟨ns, (parses_iff S ts ns).2 h1, by rw [h3, List.append_nil]⟩

/-! ## The words -/

/-- `$name`, given its place. -/
def nameHole (n : Str) (cur : Cur) : Node (List TT) :=
  .eval cur [.ident ⟨⟨cur.start.line, cur.start.column + 1⟩, cur.stop⟩ n]

/-- `$$`, given its place. -/
def dollarHole (cur : Cur) : Node (List TT) := .escape cur

/-- What is behind a dollar. -/
def slotOf (n : Str) : Template.Slot (List TT) :=
  if n = ['$'] then .hole 2 dollarHole else .hole (1 + n.length) (nameHole n)

/-- Words as constant text and holes. -/
def slots : List (Nat × Str) → List (Nat × Template.Slot (List TT))
  | [] => []
  | [(g, s)] => [(g, .word s)]
  | (g, s) :: (h, n) :: r => if s = ['$'] then (g, slotOf n) :: slots r else (g, .word s) :: slots ((h, n) :: r)

/-- The next word is not a part of the word before. -/
def Ends (r : Str) : Prop := ∀ c t, r = c :: t → nameChar c = false

/-- Words with a name or a dollar behind every dollar. -/
inductive Words (P : Str → Prop) : List (Nat × Str) → Prop
  | nil : Words P []
  | plain {g s r} : '$' ∉ s → s ≠ [] → Words P r → Words P ((g, s) :: r)
  | name {g n r} : P n → Name n → n.all nameChar = true → Ends (joined r) → Words P r →
    Words P ((g, ['$']) :: (0, n) :: r)
  | escape {g r} : Words P r → Words P ((g, ['$']) :: (0, ['$']) :: r)

theorem slots_plain {g : Nat} {s : Str} (h : '$' ∉ s) (r : List (Nat × Str)) :
    slots ((g, s) :: r) = (g, .word s) :: slots r := by
  have : s ≠ ['$'] := by rintro rfl; simp at h
  cases r with
  | nil => rfl
  | cons p r => obtain ⟨_, _⟩ := p; rw [slots, if_neg this]

theorem Name.ne {n : Str} (h : Name n) : n ≠ ['$'] := by
  rintro rfl
  exact not_name (by decide) h

theorem merged_words {S : Syn} {P : Str → Prop} (hP : ∀ n, P n → S.keyword n = false) (line : Nat) {more out}
    (hm : Merged S more out) {ws : List (Nat × Str)} (h : Words P ws) : ∀ column,
    Merged S (tokens (placeRest line column ws) ++ more) (Template.placeRest line column (slots ws) ++ out) := by
  induction h with
  | nil => intro column; exact hm
  | @plain g s r h1 h2 h3 ih =>
    intro column
    rw [slots_plain h1]
    exact .skip (by rintro rfl; simp at h1) (ih _)
  | @name g n r h1 h2 h3 h4 h5 ih =>
    intro column
    have hs : slotOf n = .hole (1 + n.length) (nameHole n) := by rw [slotOf, if_neg h2.ne]
    have := Merged.name (a := ⟨⟨line, column + g⟩, ⟨line, column + g + 1⟩⟩)
      (b := ⟨⟨line, column + g + 1⟩, ⟨line, column + g + 1 + n.length⟩⟩) h2 (hP n h1) (ih (column + g + 1 + n.length))
    simpa [slots, hs, Template.placeRest, placeRest, tokens, Template.Slot.node, nameHole, through, Template.Slot.width,
      Nat.add_assoc] using this
  | @escape g r h1 ih =>
    intro column
    have := Merged.escape (a := ⟨⟨line, column + g⟩, ⟨line, column + g + 1⟩⟩)
      (b := ⟨⟨line, column + g + 1⟩, ⟨line, column + g + 1 + 1⟩⟩) (ih (column + g + 1 + 1))
    simpa [slots, slotOf, Template.placeRest, placeRest, tokens, Template.Slot.node, dollarHole, through, Template.Slot.width,
      Nat.add_assoc] using this

/-- The row for a line of words. -/
def rowOf (l : SrcLine) : Template.Row (List TT) :=
  match slots ((l.column, l.first) :: l.rest) with
  | [] => ⟨l.above, l.column, .word l.first, []⟩
  | (c, s) :: r => ⟨l.above, c, s, r⟩

theorem slots_cons (g : Nat) (s : Str) (r : List (Nat × Str)) : ∃ x t, slots ((g, s) :: r) = (g, x) :: t := by
  cases r with
  | nil => exact ⟨_, _, rfl⟩
  | cons p r =>
    obtain ⟨h, n⟩ := p
    rw [slots]
    split <;> exact ⟨_, _, rfl⟩

theorem rowOf_eq (l : SrcLine) : ∃ x t, slots ((l.column, l.first) :: l.rest) = (l.column, x) :: t ∧
    rowOf l = ⟨l.above, l.column, x, t⟩ := by
  obtain ⟨x, t, h⟩ := slots_cons l.column l.first l.rest
  exact ⟨x, t, h, by rw [rowOf, h]⟩

theorem merged_lines {S : Syn} {P : Str → Prop} (hP : ∀ n, P n → S.keyword n = false) :
    ∀ (sl : List SrcLine), (∀ l ∈ sl, Words P ((l.column, l.first) :: l.rest)) → ∀ base,
    Merged S (tokens (placeLines base sl)) (Template.placeRows base (sl.map rowOf))
  | [], _, _ => .nil
  | l :: sl, h, base => by
    have hr := merged_lines hP sl (fun m hm => h m (by simp [hm])) (base + l.above + 1)
    have := merged_words hP (base + l.above) hr (h l (by simp)) 0
    obtain ⟨x, t, h1, h2⟩ := rowOf_eq l
    rw [h1] at this
    rw [List.map_cons, h2]
    simpa [placeLines, placeLine, tokens, placeRest, Template.placeRest, Template.placeRows] using this

theorem offside_rows : ∀ (sl : List SrcLine) (past : List Nat), Offside past sl → Template.Offside past (sl.map rowOf)
  | [], past, _ => by cases past <;> trivial
  | l :: sl, [], h => by
    obtain ⟨x, t, -, h2⟩ := rowOf_eq l
    rw [List.map_cons, h2]
    exact offside_rows sl _ h
  | l :: sl, p :: past, h => by
    obtain ⟨x, t, -, h2⟩ := rowOf_eq l
    rw [List.map_cons, h2]
    exact ⟨h.1, offside_rows sl _ h.2⟩

/-! ## Words of a text -/

theorem scan_name (l : Str) : ∀ (g : Nat) (w : Str), w ≠ [] →
    scan g w l = (g, w.reverse ++ l.takeWhile nameChar) :: scan 0 [] (l.dropWhile nameChar) := by
  induction l with
  | nil => intro g w h; simp [scan, h]
  | cons c l ih =>
    intro g w h
    by_cases hn : nameChar c = true
    · rw [scan, if_pos hn, ih g (c :: w) (by simp), List.takeWhile_cons_of_pos hn, List.dropWhile_cons_of_pos hn]
      simp
    · rw [List.takeWhile_cons_of_neg hn, List.dropWhile_cons_of_neg hn, scan, if_neg hn]
      conv => rhs; rw [scan, if_neg hn]
      by_cases hb : blankChar c = true
      · rw [if_pos hb, if_pos hb, if_neg h, if_pos rfl]
        simp
      · rw [if_neg hb, if_neg hb, if_neg h, if_pos rfl]
        simp

theorem marked_drop (l : Str) : Spec.Text.marked l = true → Spec.Text.marked (l.dropWhile nameChar) = true := by
  induction l with
  | nil => exact id
  | cons c l ih =>
    intro h
    by_cases hn : nameChar c = true
    · rw [List.dropWhile_cons_of_pos hn]
      refine ih ?_
      have hd : c ≠ '$' := by rintro rfl; revert hn; decide
      rw [Spec.Text.marked] at h
      · exact h
      all_goals simp_all
    · rwa [List.dropWhile_cons_of_neg hn]

theorem marked_cons {c : Char} (hc : c ≠ '$') (l : Str) : Spec.Text.marked (c :: l) = Spec.Text.marked l := by
  rw [Spec.Text.marked] <;> simp_all

theorem marked_dollar {c : Char} (hc : c ≠ '$') (l : Str) :
    Spec.Text.marked ('$' :: c :: l) = (nameChar c && !c.isDigit && Spec.Text.marked l) := by
  rw [Spec.Text.marked]
  simp_all

theorem names_dollar {c : Char} (hc : c ≠ '$') (l : Str) :
    names ('$' :: c :: l) = (c :: l).takeWhile nameChar :: names (c :: l) := by
  rw [names]
  simp_all

theorem names_cons {c : Char} (hc : c ≠ '$') (l : Str) : names (c :: l) = names l := by
  rw [names] <;> simp_all

theorem names_drop (l : Str) : names (l.dropWhile nameChar) = names l := by
  induction l with
  | nil => rfl
  | cons c l ih =>
    by_cases hn : nameChar c = true
    · have hd : c ≠ '$' := by rintro rfl; revert hn; decide
      rw [List.dropWhile_cons_of_pos hn, ih, names_cons hd]
    · rw [List.dropWhile_cons_of_neg hn]

theorem drop_ends (l : Str) : Ends (l.dropWhile nameChar) := by
  intro c t h
  have := List.head_dropWhile_not (p := nameChar) (l := l) (by rw [h]; simp)
  simpa [h] using this

/-- What is rendered next is no part of a name. -/
theorem scan_ends (l : Str) : ∀ g, (g = 0 → Ends l) → Ends (joined (scan g [] l)) := by
  induction l with
  | nil => intro g _ c t h; simp [scan, joined] at h
  | cons c l ih =>
    intro g hg
    by_cases hb : blankChar c = true
    · have hn : nameChar c = false := by
        simp only [blankChar, Bool.or_eq_true, beq_iff_eq] at hb
        rcases hb with rfl | rfl <;> decide
      rw [scan, if_neg (by simp [hn]), if_pos hb, if_pos rfl]
      exact ih _ (by omega)
    · obtain ⟨s, r, e⟩ := scan_first g (by simpa using hb) l
      rw [e, joined_cons]
      by_cases h0 : g = 0
      · have hn := hg h0 c l rfl
        rw [scan, if_neg (by simp [hn]), if_neg hb, if_pos rfl] at e
        cases e
        rw [if_pos h0]
        intro d t h
        cases h
        exact hn
      · rw [if_neg h0]
        intro d t h
        cases h
        decide

theorem scan_words (k : Nat) : ∀ (l : Str), l.length ≤ k → l.all holeChar = true → Spec.Text.marked l = true →
    ∀ (P : Str → Prop), (∀ n ∈ names l, P n) → ∀ g, Words P (scan g [] l) := by
  induction k with
  | zero =>
    intro l hk
    cases l with
    | nil => intros; exact .nil
    | cons => simp at hk
  | succ k ih =>
    intro l hk hc hm P hP g
    cases l with
    | nil => exact .nil
    | cons c l =>
      rw [List.all_cons, Bool.and_eq_true] at hc
      have hk' : l.length ≤ k := by simpa using hk
      by_cases hn : nameChar c = true
      · have hd : c ≠ '$' := by rintro rfl; revert hn; decide
        rw [scan, if_pos hn, scan_name l g [c] (by simp)]
        rw [marked_cons hd] at hm
        rw [names_cons hd] at hP
        refine .plain ?_ (by simp) (ih _ ?_ ?_ (marked_drop l hm) P (by rwa [names_drop]) 0)
        · intro h
          rcases List.mem_append.1 h with h | h
          · exact hd (by simpa using h : '$' = c).symm
          · exact absurd (List.mem_takeWhile_imp h) (by decide)
        · exact Nat.le_trans (List.length_dropWhile_le ..) hk'
        · exact List.all_eq_true.2 (fun d hd => List.all_eq_true.1 hc.2 d ((List.dropWhile_sublist _).subset hd))
      · rw [scan, if_neg hn]
        by_cases hb : blankChar c = true
        · have hd : c ≠ '$' := by rintro rfl; revert hb; decide
          rw [if_pos hb, if_pos rfl]
          rw [marked_cons hd] at hm
          rw [names_cons hd] at hP
          exact ih l hk' hc.2 hm P hP _
        · rw [if_neg hb, if_pos rfl]
          by_cases hd : c = '$'
          · subst hd
            cases l with
            | nil => simp [Spec.Text.marked] at hm
            | cons d l =>
              have hk2 : l.length ≤ k := by simp at hk'; omega
              rw [List.all_cons, Bool.and_eq_true] at hc
              by_cases he : d = '$'
              · subst he
                rw [scan, if_neg (by decide), if_neg (by decide), if_pos rfl]
                rw [Spec.Text.marked] at hm
                rw [names] at hP
                exact .escape (ih l hk2 hc.2.2 hm P hP 0)
              · rw [marked_dollar he, Bool.and_eq_true, Bool.and_eq_true] at hm
                rw [names_dollar he] at hP
                obtain ⟨⟨hn', hd'⟩, hm⟩ := hm
                have ht : (d :: l).takeWhile nameChar = d :: l.takeWhile nameChar := List.takeWhile_cons_of_pos hn'
                rw [scan, if_pos hn', scan_name l 0 [d] (by simp)]
                refine .name (n := [d].reverse ++ l.takeWhile nameChar) ?_ ⟨d, _, rfl, hn', by simpa using hd'⟩ ?_
                  (scan_ends _ 0 (fun _ => drop_ends l)) (ih _ ?_ ?_ (marked_drop l hm) P ?_ 0)
                · have := hP _ (List.mem_cons_self ..)
                  rwa [ht] at this
                · rw [List.all_append, List.all_takeWhile]
                  simp [hn']
                · exact Nat.le_trans (List.length_dropWhile_le ..) hk2
                · exact List.all_eq_true.2 (fun d hd => List.all_eq_true.1 hc.2.2 d ((List.dropWhile_sublist _).subset hd))
                · rw [names_drop]
                  intro n hn
                  exact hP n (by rw [names_cons he]; exact List.mem_cons_of_mem _ hn)
          · rw [marked_cons hd] at hm
            rw [names_cons hd] at hP
            exact .plain (by simpa using Ne.symm hd) (by simp) (ih l hk' hc.2 hm P hP 0)

/-! ## Filling -/

theorem seam_nil (b : List Str) (hb : b ≠ []) : Template.seam [[]] [] b = b := by
  cases b with
  | nil => exact absurd rfl hb
  | cons x b => simp [Template.seam]

theorem seam_ne (a : List Str) (s : Str) (b : List Str) : Template.seam a s b ≠ [] := by simp [Template.seam]

theorem seam_assoc (a : List Str) (s : Str) (b : List Str) (t : Str) (c : List Str) (hb : b ≠ []) :
    Template.seam (Template.seam a s b) t c = Template.seam a s (Template.seam b t c) := by
  rcases List.eq_nil_or_concat b with rfl | ⟨b, x, rfl⟩
  · exact absurd rfl hb
  · cases b with
    | nil => simp [Template.seam, List.append_assoc]
    | cons y b =>
      have e : ∀ z : Str, z :: (b ++ [x]) = (z :: b) ++ [x] := fun _ => rfl
      simp only [Template.seam, List.concat_eq_append, List.cons_append, List.head?_cons, Option.getD_some, List.tail_cons]
      rw [e, e, List.dropLast_concat, List.getLast?_concat, ← List.append_assoc, List.dropLast_concat,
        List.getLast?_concat]
      simp

variable (v : Str → List Str)

theorem filled_ne (k : Nat) (s : Str) : filled v k s ≠ [] := by
  induction s generalizing k with
  | nil => simp [filled]
  | cons c s ih =>
    cases k with
    | succ k => rw [filled]; exact ih k
    | zero =>
      by_cases hc : c = '$'
      · subst hc
        cases s with
        | nil => simp [filled, seam_ne]
        | cons d s =>
          by_cases hd : d = '$'
          · subst hd; rw [filled]; exact seam_ne _ _ _
          · rw [filled]
            · exact seam_ne _ _ _
            · simp_all
      · rw [filled]
        · exact seam_ne _ _ _
        all_goals simp_all

theorem filled_cons {c : Char} (hc : c ≠ '$') (s : Str) : filled v 0 (c :: s) = Template.seam [[c]] [] (filled v 0 s) := by
  rw [filled] <;> simp_all

theorem filled_plain {a : Str} (h : '$' ∉ a) (s : Str) : filled v 0 (a ++ s) = Template.seam [a] [] (filled v 0 s) := by
  induction a with
  | nil => rw [List.nil_append, seam_nil _ (filled_ne v 0 s)]
  | cons c a ih =>
    simp only [List.mem_cons, not_or] at h
    rw [List.cons_append, filled_cons v (fun e => h.1 e.symm), ih h.2]
    simp [Template.seam]

theorem filled_skip (n s : Str) : filled v n.length (n ++ s) = filled v 0 s := by
  induction n with
  | nil => rfl
  | cons c n ih => rw [List.cons_append, List.length_cons, filled, ih]

theorem filled_name {n : Str} (h1 : Name n) (h2 : n.all nameChar = true) {s : Str} (h3 : Ends s) :
    filled v 0 ('$' :: (n ++ s)) = Template.seam (v n) [] (filled v 0 s) := by
  obtain ⟨c, r, rfl, hc, -⟩ := h1
  have hd : c ≠ '$' := by rintro rfl; revert hc; decide
  have ht : ((c :: r) ++ s).takeWhile nameChar = c :: r := by
    rw [List.takeWhile_append_of_pos (fun x hx => List.all_eq_true.1 h2 x hx)]
    cases s with
    | nil => simp
    | cons d s => rw [List.takeWhile_cons_of_neg (by simp [h3 d s rfl]), List.append_nil]
  have hf : filled v 0 ('$' :: ((c :: r) ++ s)) = Template.seam (v (((c :: r) ++ s).takeWhile nameChar)) []
      (filled v (((c :: r) ++ s).takeWhile nameChar).length ((c :: r) ++ s)) := by
    rw [List.cons_append, filled]
    simp_all
  rw [hf, ht, filled_skip]

/-- The lines of holes. -/
def linesOf (n : Cur → Node (List TT)) : List Str :=
  match n ⟨⟨0, 0⟩, ⟨0, 0⟩⟩ with
  | .eval _ [.ident _ n] => v n
  | _ => [['$']]

/-- The lines of words. -/
def slotLines (ws : List (Nat × Template.Slot (List TT))) : List Str :=
  ws.foldr (fun p acc => Template.seam [if p.1 = 0 then [] else [' ']] [] (Template.seam (p.2.lines (linesOf v)) [] acc)) [[]]

theorem space_filled (g : Nat) (s : Str) : filled v 0 ((if g = 0 then [] else [' ']) ++ s) =
    Template.seam [if g = 0 then [] else [' ']] [] (filled v 0 s) :=
  filled_plain v (by split <;> simp) s

theorem words_filled {P : Str → Prop} {ws : List (Nat × Str)} (h : Words P ws) :
    filled v 0 (joined ws) = slotLines v (slots ws) := by
  induction h with
  | nil => rfl
  | @plain g s r h1 h2 h3 ih =>
    rw [slots_plain h1, joined_cons, space_filled, filled_plain v h1, ih]
    rfl
  | @name g n r h1 h2 h3 h4 h5 ih =>
    have hs : slots ((g, ['$']) :: (0, n) :: r) = (g, .hole (1 + n.length) (nameHole n)) :: slots r := by
      rw [slots, if_pos rfl, slotOf, if_neg h2.ne]
    rw [hs, joined_cons, joined_cons, space_filled, if_pos rfl, List.nil_append, List.singleton_append,
      filled_name v h2 h3 h4, ih]
    rfl
  | @escape g r h1 ih =>
    have hs : slots ((g, ['$']) :: (0, ['$']) :: r) = (g, .hole 2 dollarHole) :: slots r := rfl
    rw [hs, joined_cons, joined_cons, space_filled, if_pos rfl, List.nil_append, List.singleton_append,
      List.singleton_append, filled, ih]
    rfl

theorem fold_lines (ws : List (Nat × Template.Slot (List TT))) (h : ∀ p ∈ ws, p.2.lines (linesOf v) ≠ []) : ∀ a : List Str,
    a ≠ [] → ws.foldl (fun a p => Template.seam a (if p.1 = 0 then [] else [' ']) (p.2.lines (linesOf v))) a =
      Template.seam a [] (slotLines v ws) := by
  induction ws with
  | nil =>
    intro a ha
    rcases List.eq_nil_or_concat a with rfl | ⟨a, x, rfl⟩
    · exact absurd rfl ha
    · simp [slotLines, Template.seam]
  | cons p ws ih =>
    intro a ha
    rw [List.foldl_cons, ih (fun q hq => h q (by simp [hq])) _ (seam_ne _ _ _),
      seam_assoc _ _ _ _ _ (h p (by simp))]
    have : slotLines v (p :: ws) = Template.seam [if p.1 = 0 then [] else [' ']] []
        (Template.seam (p.2.lines (linesOf v)) [] (slotLines v ws)) := rfl
    rw [this]
    simp [Template.seam]

theorem slots_lines {P : Str → Prop} (hP : ∀ n, P n → v n ≠ []) {ws : List (Nat × Str)} (h : Words P ws) :
    ∀ p ∈ slots ws, p.2.lines (linesOf v) ≠ [] := by
  induction h with
  | nil => intro p hp; cases hp
  | @plain g s r h1 h2 h3 ih =>
    rw [slots_plain h1]
    intro p hp
    rcases List.mem_cons.1 hp with rfl | hp
    · simp [Template.Slot.lines]
    · exact ih p hp
  | @name g n r h1 h2 h3 h4 h5 ih =>
    rw [slots, if_pos rfl, slotOf, if_neg h2.ne]
    intro p hp
    rcases List.mem_cons.1 hp with rfl | hp
    · exact hP n h1
    · exact ih p hp
  | @escape g r h1 ih =>
    intro p hp
    rcases List.mem_cons.1 hp with rfl | hp
    · exact List.cons_ne_nil _ _
    · exact ih p hp

theorem words_at {P : Str → Prop} {g : Nat} {s : Str} {r : List (Nat × Str)} (h : Words P ((g, s) :: r)) (g' : Nat) :
    Words P ((g', s) :: r) := by
  cases h with
  | plain h1 h2 h3 => exact .plain h1 h2 h3
  | name h1 h2 h3 h4 h5 => exact .name h1 h2 h3 h4 h5
  | escape h1 => exact .escape h1

theorem slots_at {g : Nat} {s : Str} {r : List (Nat × Str)} {x t} (h : slots ((g, s) :: r) = (g, x) :: t) (g' : Nat) :
    slots ((g', s) :: r) = (g', x) :: t := by
  cases r with
  | nil => simp_all [slots]
  | cons p r =>
    obtain ⟨_, _⟩ := p
    rw [slots] at h ⊢
    split at h <;> simp_all

theorem row_filled {P : Str → Prop} (hP : ∀ n, P n → v n ≠ []) (l : SrcLine)
    (h : Words P ((l.column, l.first) :: l.rest)) : (rowOf l).lines (linesOf v) = filled v 0 (srcText l) := by
  obtain ⟨x, t, h1, h2⟩ := rowOf_eq l
  have h0 := words_at h 0
  have hs := slots_at h1 0
  have hw := words_filled v h0
  have hl := slots_lines v hP h0
  rw [hs] at hw hl
  rw [joined_cons, if_pos rfl, List.nil_append] at hw
  rw [show srcText l = l.first ++ joined l.rest from rfl, hw, h2]
  have := fold_lines v t (fun p hp => hl p (by simp [hp])) (x.lines (linesOf v)) (hl (0, x) (by simp))
  rw [Template.Row.lines, this]
  have e : slotLines v ((0, x) :: t) = Template.seam [[]] [] (Template.seam (x.lines (linesOf v)) [] (slotLines v t)) := rfl
  rw [e, seam_nil _ (seam_ne _ _ _)]

theorem margin_indent (cfg : Config) (k : Nat) : ∀ c ∈ marginText cfg k, indentChar c = true := by
  intro c hc
  unfold marginText at hc
  split at hc
  · rw [(List.mem_replicate.1 hc).2]; rfl
  · rw [(List.mem_replicate.1 hc).2]; rfl

/-- A line that is moved in is filled like the line itself. -/
theorem fill_moved (cfg : Config) (k : Nat) {c : Char} (hc : indentChar c = false) (r : Str) :
    fill v (marginText cfg k ++ c :: r) = (filled v 0 (c :: r)).map (movedIn cfg k) := by
  have h1 : (marginText cfg k ++ c :: r).takeWhile indentChar = marginText cfg k := by
    rw [List.takeWhile_append_of_pos (margin_indent cfg k), List.takeWhile_cons_of_neg (by simp [hc]), List.append_nil]
  have h2 : (marginText cfg k ++ c :: r).dropWhile indentChar = c :: r := by
    rw [List.dropWhile_append_of_pos (margin_indent cfg k), List.dropWhile_cons_of_neg (by simp [hc])]
  rw [fill, h1, h2]
  rfl

theorem out_filled (cfg : Config) {P : Str → Prop} (hP : ∀ n, P n → v n ≠ []) : ∀ (sl : List SrcLine) (past : List Nat),
    (∀ l ∈ sl, Words P ((l.column, l.first) :: l.rest) ∧ ∃ c r, l.first = c :: r ∧ indentChar c = false) →
    Template.outLines cfg (linesOf v) past (sl.map rowOf) = (outLines cfg past sl).flatMap (fill v)
  | [], _, _ => rfl
  | l :: sl, past, h => by
    obtain ⟨hw, c, r, hf, hc⟩ := h l (by simp)
    obtain ⟨x, t, h1, h2⟩ := rowOf_eq l
    have ih := out_filled cfg hP sl (l.column :: past) (fun m hm => h m (by simp [hm]))
    have hr := row_filled v hP l hw
    have hs : srcText l = c :: (r ++ joined l.rest) := by
      rw [show srcText l = l.first ++ joined l.rest from rfl, hf]
      rfl
    rw [List.map_cons, Template.outLines, outLines, List.flatMap_append, List.flatMap_cons, hr, hs, fill_moved v cfg _ hc, h2]
    simp only
    rw [ih]
    congr 1
    split <;> rfl

/-! ## Text -/

theorem marked_append : ∀ (a b : Str), (b = [] ∨ ∃ r, b = '\n' :: r) → Spec.Text.marked (a ++ b) = true →
    Spec.Text.marked a = true ∧ Spec.Text.marked b = true
  | [], b, _, h => ⟨rfl, h⟩
  | [c], b, hb, h => by
    by_cases hc : c = '$'
    · subst hc
      rcases hb with rfl | ⟨r, rfl⟩
      · simp [Spec.Text.marked] at h
      · rw [List.singleton_append, marked_dollar (by decide)] at h
        simp [show nameChar '\n' = false by decide] at h
    · rw [List.singleton_append, marked_cons hc] at h
      exact ⟨by rw [marked_cons hc]; rfl, h⟩
  | c :: d :: a, b, hb, h => by
    by_cases hc : c = '$'
    · subst hc
      by_cases hd : d = '$'
      · subst hd
        rw [List.cons_append, List.cons_append, Spec.Text.marked] at h
        exact marked_append a b hb h
      · rw [List.cons_append, List.cons_append, marked_dollar hd, Bool.and_eq_true] at h
        rw [marked_dollar hd, h.1]
        exact marked_append a b hb h.2
    · rw [List.cons_append, marked_cons hc] at h
      rw [marked_cons hc]
      exact marked_append (d :: a) b hb h

theorem takeWhile_append_break (a : Str) (b : Str) (hb : b = [] ∨ ∃ r, b = '\n' :: r) :
    (a ++ b).takeWhile nameChar = a.takeWhile nameChar := by
  induction a with
  | nil => rcases hb with rfl | ⟨r, rfl⟩ <;> rfl
  | cons c a ih => rw [List.cons_append, List.takeWhile_cons, List.takeWhile_cons, ih]

theorem names_append : ∀ (a b : Str), (b = [] ∨ ∃ r, b = '\n' :: r) → names (a ++ b) = names a ++ names b
  | [], b, _ => rfl
  | [c], b, hb => by
    by_cases hc : c = '$'
    · subst hc
      rcases hb with rfl | ⟨r, rfl⟩
      · rw [List.append_nil]; simp [names]
      · rw [List.singleton_append, names_dollar (by decide)]
        rfl
    · rw [List.singleton_append, names_cons hc, names_cons hc]
      rfl
  | c :: d :: a, b, hb => by
    by_cases hc : c = '$'
    · subst hc
      by_cases hd : d = '$'
      · subst hd
        rw [List.cons_append, List.cons_append, names, names]
        exact names_append a b hb
      · rw [List.cons_append, List.cons_append, names_dollar hd, names_dollar hd, ← List.cons_append,
          takeWhile_append_break _ b hb, names_append (d :: a) b hb]
        rfl
    · rw [List.cons_append, names_cons hc, names_cons hc]
      exact names_append (d :: a) b hb

/-- Every line by itself. -/
theorem lines_marked : ∀ (ls : List Str), Spec.Text.marked (Macro.textOf ls) = true → ∀ l ∈ ls,
    Spec.Text.marked l = true ∧ ∀ n ∈ names l, n ∈ names (Macro.textOf ls)
  | [], _, l, hl => by cases hl
  | [l], h, m, hm => by
    simp only [List.mem_singleton] at hm
    subst hm
    exact ⟨h, fun n hn => hn⟩
  | l :: k :: ls, h, m, hm => by
    have e : Macro.textOf (l :: k :: ls) = l ++ '\n' :: Macro.textOf (k :: ls) := rfl
    rw [e] at h
    obtain ⟨h1, h2⟩ := marked_append l _ (.inr ⟨_, rfl⟩) h
    rw [e, names_append l _ (.inr ⟨_, rfl⟩)]
    rw [marked_cons (by decide)] at h2
    rcases List.mem_cons.1 hm with rfl | hm
    · exact ⟨h1, fun n hn => List.mem_append_left _ hn⟩
    · obtain ⟨k1, k2⟩ := lines_marked (k :: ls) h2 m hm
      exact ⟨k1, fun n hn => List.mem_append_right _ (by rw [names_cons (by decide)]; exact k2 n hn)⟩

theorem marked_spaces (k : Nat) (l : Str) : Spec.Text.marked (List.replicate k ' ' ++ l) = Spec.Text.marked l ∧
    names (List.replicate k ' ' ++ l) = names l := by
  induction k with
  | zero => exact ⟨rfl, rfl⟩
  | succ k ih =>
    rw [List.replicate_succ, List.cons_append, marked_cons (by decide), names_cons (by decide)]
    exact ih

/-- The first character of a word is no blank. -/
theorem scan_ink (l : Str) : l.all holeChar = true → ∀ (g : Nat) (w : Str), (∀ c ∈ w, indentChar c = false) →
    ∀ p ∈ scan g w l, ∃ c r, p.2 = c :: r ∧ indentChar c = false := by
  have rev : ∀ w : Str, w ≠ [] → (∀ c ∈ w, indentChar c = false) → ∃ c r, w.reverse = c :: r ∧ indentChar c = false := by
    intro w hw h
    obtain ⟨c, r, e⟩ := List.exists_cons_of_ne_nil (show w.reverse ≠ [] by simpa using hw)
    exact ⟨c, r, e, h c (by rw [← List.mem_reverse, e]; simp)⟩
  induction l with
  | nil =>
    intro _ g w hw p hp
    rw [scan] at hp
    split at hp
    · cases hp
    · rename_i h
      simp only [List.mem_singleton] at hp
      subst hp
      exact rev w h hw
  | cons c l ih =>
    intro hh g w hw p hp
    rw [List.all_cons, Bool.and_eq_true] at hh
    have ic : blankChar c = false → indentChar c = false := by
      intro hb
      simp only [blankChar, Bool.or_eq_false_iff, beq_eq_false_iff_ne] at hb
      have ht : c ≠ '\t' := by rintro rfl; exact absurd hh.1 (by decide)
      simp [indentChar, hb.1, ht]
    rw [scan] at hp
    split at hp
    · rename_i hn
      refine ih hh.2 g (c :: w) (fun d hd => ?_) p hp
      rcases List.mem_cons.1 hd with rfl | hd
      · exact ic (nameChar_facts hn).2.2.2.2.2.2.2
      · exact hw d hd
    · split at hp
      · split at hp
        · exact ih hh.2 _ _ (by simp) p hp
        · rename_i h
          rcases List.mem_cons.1 hp with rfl | hp
          · exact rev w h hw
          · exact ih hh.2 _ _ (by simp) p hp
      · rename_i hb
        have hb' := ic (by simpa using hb)
        split at hp
        · rcases List.mem_cons.1 hp with rfl | hp
          · exact ⟨c, [], rfl, hb'⟩
          · exact ih hh.2 _ _ (by simp) p hp
        · rename_i h
          rcases List.mem_cons.1 hp with rfl | hp
          · exact rev w h hw
          · rcases List.mem_cons.1 hp with rfl | hp
            · exact ⟨c, [], rfl, hb'⟩
            · exact ih hh.2 _ _ (by simp) p hp

theorem srcs_words {P : Str → Prop} : ∀ (ls : List Str), (∀ l ∈ ls, l.all holeChar = true ∧ Spec.Text.marked l = true ∧
    ∀ n ∈ names l, P n) → ∀ a, ∀ l ∈ srcs a ls,
    Words P ((l.column, l.first) :: l.rest) ∧ ∃ c r, l.first = c :: r ∧ indentChar c = false
  | [], _, a, l, hl => by cases hl
  | m :: ls, h, a, l, hl => by
    obtain ⟨h1, h2, h3⟩ := h m (by simp)
    have hw := scan_words _ m (Nat.le_refl _) h1 h2 P h3 0
    have hi := scan_ink m h1 0 [] (by simp)
    rw [srcs] at hl
    split at hl
    · exact srcs_words ls (fun x hx => h x (by simp [hx])) _ l hl
    · rename_i n s r e
      rw [e] at hw hi
      rcases List.mem_cons.1 hl with rfl | hl
      · exact ⟨hw, hi (n, s) (by simp)⟩
      · exact srcs_words ls (fun x hx => h x (by simp [hx])) _ l hl

end Genco.Proofs.TextFile
