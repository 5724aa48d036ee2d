import Verif.Proofs.DocHoles

/-!
# Templates in source text: separators
-/

set_option autoImplicit false

namespace Genco.Proofs.DocFile

open Genco Macro Spec Spec.Text Spec.MacroFile Spec.Doc Genco.Proofs Genco.Proofs.TextFile

variable {ι Env : Type}

section

variable {C : Compiler} {S : Syn} {H : Host ι (List TT) Env} {ρ : Env}

theorem pos_spaces (n : Nat) : ∀ p : Place, C.pos (go p (List.replicate n ' ')) = ⟨(C.pos p).line, (C.pos p).column + n⟩ := by
  induction n with
  | zero => intro p; rfl
  | succ n ih =>
    intro p
    show C.pos (go (p.next ' ') (List.replicate n ' ')) = _
    rw [ih, pos_step C (by decide) (.inr (by decide))]
    simp only [Pos.mk.injEq, true_and]
    omega

theorem chain_ink {E : Type} {H : Host ι E Env} {ρ ρ' : Env} {a e : Pos} {ns : List (Node E)} {r : List (Nat × Given ι)}
    (h : Chain H ρ a ns r e ρ') : emptyText ns = false := by
  induction h with
  | nil => rfl
  | cons hn _ ih => rw [emptyText, hn.ink, ih]; rfl

/-- What is between parentheses, on one line. -/
theorem sep_run (hH : Full H) {p : Place} {q : Str} {ns : List (Node (List TT))} {r : List (Nat × Given ι)} {e : Pos} {ρ' : Env}
    (hc : Chain H ρ (C.pos (p.next '(')) (Template.flatten ns) r e ρ') {b : Nat}
    (he : C.pos (go p ('(' :: q)) = ⟨e.line, e.column + b⟩) {cs : List (Call ι)} (hcs : ∀ c ∈ cs, ¬ EmptyCall c)
    (hm : marks (restCalls gC (gRest r) ++ (if b = 0 then [] else [.space])) = marks cs) :
    ∃ r' ss, Macro.quote (some ⟨C.pos p, C.pos (go p ('(' :: (q ++ [')'])))⟩) ns = .ok (r', ss) ∧
      Template.letters ((runBlock H ρ ss).flatMap callItems) = Template.letters (cs.flatMap callItems) := by
  obtain ⟨qs, as, h1, h2, h3, h4⟩ := chain_laid hc
  have hk := chain_ink hc
  have hi : inner ⟨C.pos p, C.pos (go p ('(' :: (q ++ [')'])))⟩ = (C.pos (p.next '('), ⟨e.line, e.column + b⟩) := by
    have e1 : go p ('(' :: (q ++ [')'])) = (go p ('(' :: q)).next ')' := by rw [← List.cons_append, go_append]; rfl
    rw [e1, inner]
    simp only
    rw [pos_step C (by decide) (.inr (by decide)), pos_step C (by decide) (.inr (by decide)), he]
    simp
  obtain ⟨-, q2⟩ := quote_ok H (some ⟨C.pos p, C.pos (go p ('(' :: (q ++ [')'])))⟩) (nodes_ok H (Template.flatten ns))
  have hb : (stepsOf H (Template.flatten ns)).bind (block (Step.ws (ι := ι) (Env := Env))
      ((some ⟨C.pos p, C.pos (go p ('(' :: (q ++ [')'])))⟩ : Option Cur).map inner)) =
      some (as ++ (if b = 0 then [] else [WsCall.space]).map Step.ws) := by
    rw [h1, Option.map_some, hi, Option.bind_some]
    show laidOut Step.ws (some ⟨e.line, e.column + b⟩) (C.pos (p.next '(')).column [] (C.pos (p.next '(')) qs = _
    have := h4 (some ⟨e.line, e.column + b⟩) (C.pos (p.next '(')).column [] []
    rw [List.append_nil] at this
    rw [this, laidOut, gapBefore, if_pos rfl, if_pos rfl]
    have hd : depth (C.pos (p.next '(')).column [] = 0 := rfl
    rw [hd]
    by_cases hb : b = 0
    · simp [hb]
    · simp [hb, Nat.pos_of_ne_zero hb]
  obtain ⟨ss, hq, hev⟩ := q2 _ hb
  have hq' : Macro.quote (some ⟨C.pos p, C.pos (go p ('(' :: (q ++ [')'])))⟩) (Template.flatten ns) =
      .ok (interpolated (Template.flatten ns), ss) := hq
  refine ⟨_, ss, by rw [quote_flatten]; exact hq', ?_⟩
  rw [letters_marks _ (quote_full H hH.value hH.scope _ _ hk _ ss hq' ρ), letters_marks cs hcs, ← perform_evs, hev,
    perform_append, h2, h3, perform_gap, ← hm, marks_append]
  by_cases hb : b = 0 <;> simp [hb, WsCall.call]

/-- Words without spaces between them. -/
theorem words_marks (r : List (Nat × Given ι)) : ∀ {t : Str},
    (∀ x ∈ r, ∃ w, w ≠ [] ∧ x.2 = ([.append (.literal (.static w))], [w])) → lead r = [t] → ' ' ∉ t →
    marks (restCalls gC (gRest r)) = t.map Mark.char := by
  induction r with
  | nil => intro t _ h _; cases h; rfl
  | cons x r ih =>
    obtain ⟨g, G⟩ := x
    intro t hw hl ht
    obtain ⟨w, w1, rfl⟩ := hw (g, G) (by simp)
    have hone : ∃ u, lead r = [u] := by
      rw [lead] at hl
      cases hr : lead r with
      | nil => exact absurd hr (lead_ne r)
      | cons u us =>
        cases us with
        | nil => exact ⟨u, rfl⟩
        | cons u' us =>
          rw [hr] at hl
          by_cases hg : g = 0 <;> simp [hg, Template.seam] at hl
    obtain ⟨u, hu⟩ := hone
    rw [lead, hu] at hl
    have hg : g = 0 := by
      by_contra hg
      rw [if_neg hg] at hl
      simp [Template.seam] at hl
      rw [← hl] at ht
      simp at ht
    subst hg
    simp [Template.seam] at hl
    subst hl
    have hr := ih (fun x hx => hw x (by simp [hx])) hu (fun h => ht (by simp [h]))
    have e1 : restCalls gC (gRest ((0, ([.append (.literal (.static w))], [w])) :: r) : List (Nat × Template.Slot (Given ι))) =
        [.append (.literal (.static w))] ++ restCalls gC (gRest r) := rfl
    rw [e1, marks_append, hr, List.map_append]
    simp [marks, markOf]

/-- The call of `$[' ']`, `$['\\r']` and `$['\\n']`. -/
def controlCall : ControlKind → Call ι
  | .space => .space
  | .push => .push
  | .line => .line

theorem acts_control (k : ControlKind) (cur : Cur) : Acts H ρ (.control cur k) cur
    [controlCall k] ρ := by
  refine ⟨⟨_, rfl, ?_, ?_⟩, rfl, ?_⟩
  · cases k <;> rfl
  · cases k <;> rfl
  · intro c hc
    cases List.mem_singleton.1 hc
    cases k <;> simp [EmptyCall, controlCall]

theorem sep_control (hH : Full H) {k : ControlKind} {s : Str} {v : Char} (hu : unquoted '\'' s = some [v])
    (hk : (v, k) ∈ [(' ', ControlKind.space), ('\r', .push), ('\n', .line)]) (p : Place) :
    ∃ ts ms r' ss, ReadsAs C (p.next '(') ('$' :: '[' :: (('\'' :: s ++ ['\'']) ++ [']'])) Halt ts ∧ Means S (.nodes ts ms) ∧
      emptyText ms = false ∧
      Macro.quote (some ⟨C.pos p, C.pos (go p ('(' :: (('$' :: '[' :: (('\'' :: s ++ ['\'']) ++ [']'])) ++ [')'])))⟩) ms = .ok (r', ss) ∧
      Template.letters ((runBlock H ρ ss).flatMap callItems) =
        Template.letters ([controlCall k].flatMap (callItems (ι := ι))) := by
  have h1 := readsAs_punct (C := C) (p := p.next '(') (c := '$') (by decide) (by decide) (by decide) false
  have h2 := ReadsAs.group (C := C) (p := (p.next '(').next '$') .bracket (readsAs_char hu _) (fun r => rfl)
  have h3 := (h1.append h2 (fun r _ => rfl)).weaken (Q := Halt) (fun _ _ => trivial)
  have hm := Means.control (S := S) (a := ⟨C.pos (p.next '('), C.pos ((p.next '(').next '$')⟩)
    (b := ⟨C.pos ((p.next '(').next '$'), C.pos (go ((p.next '(').next '$')
      ('[' :: (('\'' :: s ++ ['\'']) ++ [']'])))⟩)
    (c := ⟨C.pos (((p.next '(').next '$').next '['), C.pos (go (((p.next '(').next '$').next '[') ('\'' :: s ++ ['\'']))⟩)
    (j := false) (text := '\'' :: s ++ ['\'']) hk (ts := []) rfl .nil
  obtain ⟨r', ss, q1, q2⟩ := sep_run (C := C) (H := H) (ρ := ρ) hH (p := p)
    (q := '$' :: '[' :: (('\'' :: s ++ ['\'']) ++ [']']))
    (ns := [.control (through ⟨C.pos (p.next '('), C.pos ((p.next '(').next '$')⟩
      ⟨C.pos ((p.next '(').next '$'), C.pos (go ((p.next '(').next '$') ('[' :: (('\'' :: s ++ ['\'']) ++ [']'])))⟩) k])
    (b := 0) (.cons (g := 0) (G := ([controlCall k], []))
      (acts_control k _) .nil) rfl
    (cs := [controlCall k])
    (by intro c hc; cases List.mem_singleton.1 hc; cases k <;> simp [EmptyCall, controlCall]) (by cases k <;> rfl)
  exact ⟨_, _, r', ss, h3, hm, rfl, q1, q2⟩

theorem strip_word (w : Str) : strip (w.map Glyph.char : Line ι) = w.map Glyph.char := by
  rw [strip, List.filter_eq_self]
  intro x hx
  obtain ⟨c, -, rfl⟩ := List.mem_map.1 hx
  rfl

theorem loose_chars (w : Str) : loose (w.map Glyph.char : Line ι) = true := by
  induction w with
  | nil => rfl
  | cons c w ih =>
    cases w with
    | nil => rfl
    | cons d w => exact ih

theorem held_chars {L : Lang ι} {cfg : Config} (w : Str) : ∀ p : Place,
    Held C S L cfg H ρ p (w.map Glyph.char : Line ι) ρ := by
  induction w with
  | nil => intro p; rfl
  | cons c w ih => intro p; exact ih (p.next c)

theorem sep_told (L : Lang ι) (cfg : Config) (hH : Full H) {q : Str} {sp : Template.Sep} (h : IsSep q sp) (p : Place) :
    ∃ ts ms r' ss, ReadsAs C (p.next '(') q Halt ts ∧ Means S (.nodes ts ms) ∧ emptyText ms = false ∧
      Macro.quote (some ⟨C.pos p, C.pos (go p ('(' :: (q ++ [')'])))⟩) ms = .ok (r', ss) ∧
      Template.letters ((runBlock H ρ ss).flatMap callItems) = Template.letters (sp.calls.flatMap (callItems (ι := ι))) := by
  cases h with
  | gap n =>
    obtain ⟨r', ss, q1, q2⟩ := sep_run (C := C) (H := H) (ρ := ρ) hH (p := p) (q := List.replicate n ' ') (ns := []) (r := [])
      (b := n) .nil (pos_spaces n _) (cs := (Template.Sep.gap (decide (0 < n))).calls)
      (by intro c hc; by_cases hn : 0 < n <;> simp [Template.Sep.calls, hn] at hc; simp [hc, EmptyCall])
      (by
        by_cases hn : 0 < n
        · simp [Template.Sep.calls, hn, gRest, restCalls, Nat.pos_iff_ne_zero.1 hn]
        · have : n = 0 := by omega
          subst this; rfl)
    exact ⟨[], [], r', ss, readsAs_blanks (by simp [blankChar]) _ _, .nil, rfl, q1, q2⟩
  | @text a b s hs hc hap hnu hne =>
    have hpos := pos_spaces (C := C) a (p.next '(')
    obtain ⟨F, r, e, hP⟩ := line_pieces (C := C) (S := S) (L := L) (cfg := cfg) (H := H) (ρ' := ρ) s.length
      (s.map Glyph.char) (by simp) ρ (go (p.next '(') (List.replicate a ' ')) (C.pos (p.next '(')) a
      (fun c hc' => by
        obtain ⟨d, hd, e⟩ := List.mem_map.1 hc'
        cases e
        refine ⟨(hc c hd).1, ?_⟩
        rintro rfl
        exact absurd (hc _ hd).2 (by decide))
      (by rw [shape_word]; exact hap) (by rw [shape_word]; exact hnu) (loose_chars s) (held_chars s _) hpos
    obtain ⟨ts, ms, b1, b2, b3⟩ := pieces_balanced hP.valid hne (by rw [hP.brackets, shape_word])
    have hlast : ∃ z, (s.map Glyph.char : Line ι).getLast? = some z ∧ Doc.isSpace z = false := by
      refine ⟨.char (s.getLast hs), by rw [List.getLast?_map, List.getLast?_eq_getLast_of_ne_nil hs]; rfl, ?_⟩
      have := (hc _ (List.getLast_mem hs)).2
      simp only [blankChar, Bool.or_eq_false_iff] at this
      exact this.1
    obtain ⟨z, z1, z2⟩ := hlast
    have he := hP.stop.2 z z1 z2
    have hch := hP.chain
    have hsp : ' ' ∉ s := fun h => absurd (hc _ h).2 (by decide)
    rw [← b3] at hch
    rw [source_word] at he
    have hmk : marks (restCalls gC (gRest r)) = marks ((if a = 0 then [] else [.space]) ++ [Call.append (.literal (.static s))]) := by
      have hw := hP.plain (fun x hx => by obtain ⟨c, -, rfl⟩ := List.mem_map.1 hx; exact ⟨c, rfl⟩)
      have hne : r ≠ [] := by
        intro h
        have := hP.none.1 h
        rw [shape_word] at this
        obtain ⟨c, s', rfl⟩ := List.exists_cons_of_ne_nil hs
        simp only [blank, List.all_cons, Bool.and_eq_true] at this
        have hb := (hc c (by simp)).2
        simp only [blankChar, Bool.or_eq_false_iff] at hb
        rw [this.1] at hb
        cases hb.1
      obtain ⟨⟨g, G⟩, r', rfl⟩ := List.exists_cons_of_ne_nil hne
      have hg : g = a := by
        have := hP.first _ _ rfl
        rw [shape_word] at this
        obtain ⟨c, s', rfl⟩ := List.exists_cons_of_ne_nil hs
        have hb := (hc c (by simp)).2
        simp only [blankChar, Bool.or_eq_false_iff] at hb
        rw [columnOf, List.takeWhile_cons_of_neg (by rw [hb.1]; simp)] at this
        simpa using this
      subst hg
      have hl := hP.lines 0
      rw [left_same _ (fun x hx => by obtain ⟨w, -, e⟩ := hw x hx; rw [e]; simp), Nat.zero_add, strip_word] at hl
      have hfill : Doc.filled (s.map Glyph.char : Line ι) = [s] := by
        have := filled_word (ι := ι) s []
        rw [List.append_nil] at this
        rw [this]
        simp [Doc.filled, Template.seam]
      have hsq : ∀ x ∈ (s.map Glyph.char : Line ι), Doc.isSpace x = false := by
        intro x hx
        obtain ⟨c, hc', rfl⟩ := List.mem_map.1 hx
        have := (hc c hc').2
        simp only [blankChar, Bool.or_eq_false_iff] at this
        exact this.1
      have hgap : Doc.squeeze (spaces g ++ (s.map Glyph.char : Line ι)) =
          (if g = 0 then [] else [.char ' ']) ++ (s.map Glyph.char : Line ι) := by
        obtain ⟨c, s', rfl⟩ := List.exists_cons_of_ne_nil hs
        rw [List.map_cons, squeeze_gap g (hsq _ (by simp))]
        have := squeeze_ink_line hsq []
        rw [List.append_nil] at this
        rw [← List.map_cons, this]
        simp [Doc.squeeze]
      rw [hgap, lead] at hl
      have hl' : lead ((0, G) :: r') = [s] := by
        rw [lead, if_pos rfl, seam_nil _ (seam_ne _ _ _)]
        refine seam_cancel (g := g) (seam_ne _ _ _) (by simp) ?_
        rw [hl]
        by_cases hg : g = 0
        · rw [if_pos hg, if_pos hg, List.nil_append, hfill]
          rfl
        · rw [if_neg hg, if_neg hg, List.singleton_append, Doc.filled, hfill]
      have := words_marks ((0, G) :: r') (fun x hx => by
        rcases List.mem_cons.1 hx with rfl | hx
        · exact hw (g, G) (by simp)
        · exact hw x (by simp [hx])) hl' hsp
      have e1 : restCalls gC (gRest ((g, G) :: r')) = (if g = 0 then [] else [.space]) ++
          restCalls gC (gRest ((0, G) :: r')) := by
        by_cases hg : g = 0 <;> simp [hg, restCalls, gRest]
      rw [e1, marks_append, this, marks_append]
      simp [marks, markOf]
    obtain ⟨r', ss, q1, q2⟩ := sep_run (C := C) (H := H) (ρ := ρ) hH (p := p)
      (q := List.replicate a ' ' ++ (s ++ List.replicate b ' ')) (ns := ms) (r := r) (e := e) (b := b) hch
      (by
        rw [he, show ('(' :: (List.replicate a ' ' ++ (s ++ List.replicate b ' ')) : Str) =
          ['('] ++ (List.replicate a ' ' ++ (s ++ List.replicate b ' ')) from rfl, go_append, go_append, go_append]
        exact pos_spaces b _)
      (cs := (Template.Sep.text (decide (0 < a)) s (decide (0 < b))).calls)
      (by
        intro c hc'
        have : c = .space ∨ c = .append (.literal (.static s)) := by
          simp only [Template.Sep.calls, List.mem_append, List.mem_cons] at hc'
          rcases hc' with h | h | h
          · split at h
            · exact .inl (by simpa using h)
            · cases h
          · exact .inr h
          · split at h
            · exact .inl (by simpa using h)
            · cases h
        rcases this with rfl | rfl
        · simp [EmptyCall]
        · simpa [EmptyCall] using hs)
      (by
        rw [marks_append, hmk, ← marks_append]
        by_cases ha : 0 < a <;> by_cases hb : 0 < b <;>
          simp [Template.Sep.calls, ha, hb, Nat.pos_iff_ne_zero.1] <;> simp_all)
    refine ⟨ts, ms, r', ss, ?_, b2, ?_, q1, q2⟩
    · have h1 : ReadsAs C (p.next '(') (List.replicate a ' ') (fun _ => True) [] := readsAs_blanks (by simp [blankChar]) _ _
      have h2 : ReadsAs C (go (p.next '(') (List.replicate a ' ')) s Halt ts := ⟨_, b1, by
        have := hP.runs
        rw [source_word] at this
        exact this⟩
      have h3 : ReadsAs C (go (go (p.next '(') (List.replicate a ' ')) s) (List.replicate b ' ') Halt [] :=
        readsAs_blanks (by simp [blankChar]) _ _
      have h4 := h1.append (h2.append h3 (fun r hr => by
        cases b with
        | zero => exact hr
        | succ b => exact halt_space _)) (fun _ _ => trivial)
      simpa using h4
    · rw [← ink_flatten]
      exact chain_ink hch
  | space => exact sep_control (k := .space) (s := [' ']) hH rfl (by simp) p
  | push => exact sep_control (k := .push) (s := ['\\', 'r']) hH rfl (by simp) p
  | line => exact sep_control (k := .line) (s := ['\\', 'n']) hH rfl (by simp) p

end

end Genco.Proofs.DocFile
