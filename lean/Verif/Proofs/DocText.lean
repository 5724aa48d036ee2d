import Verif.Proofs.DocLine

/-!
# Templates in source text: the lines of a text
-/

set_option autoImplicit false

namespace Genco.Proofs.DocFile

open Genco Macro Spec Spec.Text Spec.MacroFile Spec.Doc Genco.Proofs Genco.Proofs.TextFile

variable {ι Env : Type}

theorem drop_shape (l : Line ι) : (l.dropWhile Doc.isSpace = [] ↔ blank (shape l) = true) ∧
    l = spaces (columnOf (shape l)) ++ l.dropWhile Doc.isSpace ∧
    ∀ x r, l.dropWhile Doc.isSpace = x :: r → Doc.isSpace x = false := by
  induction l with
  | nil => exact ⟨by simp [shape, blank], rfl, by simp⟩
  | cons x l ih =>
    cases hx : Doc.isSpace x with
    | true =>
      have hs : x.shape = ' ' := by rw [isSpace_shape] at hx; simpa using hx
      have hc : x = .char ' ' := by
        cases x with
        | char c => simp [Glyph.shape] at hs; rw [hs]
        | hole => cases hx
      subst hc
      refine ⟨?_, ?_, ?_⟩
      · rw [List.dropWhile_cons_of_pos (by rfl), ih.1]
        simp [shape, blank, Glyph.shape]
      · rw [List.dropWhile_cons_of_pos (by rfl)]
        conv => lhs; rw [ih.2.1]
        simp [shape, Glyph.shape, columnOf, spaces, List.replicate_succ]
      · rw [List.dropWhile_cons_of_pos (by rfl)]
        exact ih.2.2
    | false =>
      have hs : (x.shape == ' ') = false := by rw [← isSpace_shape]; exact hx
      refine ⟨?_, ?_, ?_⟩
      · rw [List.dropWhile_cons_of_neg (by simp [hx])]
        simp [shape, blank, hs]
      · rw [List.dropWhile_cons_of_neg (by simp [hx])]
        simp [shape, hs, columnOf, spaces]
      · rw [List.dropWhile_cons_of_neg (by simp [hx])]
        rintro y r h
        cases h
        exact hx

theorem squeeze_tidy (l : Line ι) (h : blank (shape l) = false) :
    Doc.squeeze l = (if columnOf (shape l) = 0 then [] else [.char ' ']) ++ Doc.tidy l := by
  obtain ⟨h1, h2, h3⟩ := drop_shape l
  unfold Doc.tidy
  cases hd : l.dropWhile Doc.isSpace with
  | nil => rw [h1.1 hd] at h; cases h
  | cons x r =>
    rw [hd] at h2
    conv => lhs; rw [h2]
    exact squeeze_gap _ (h3 x r hd) r

theorem seam_cancel {g : Nat} {a b : List Str} (ha : a ≠ []) (hb : b ≠ [])
    (h : Template.seam (if g = 0 then [[]] else [[' ']]) [] a = Template.seam (if g = 0 then [[]] else [[' ']]) [] b) : a = b := by
  obtain ⟨x, a, rfl⟩ := List.exists_cons_of_ne_nil ha
  obtain ⟨y, b, rfl⟩ := List.exists_cons_of_ne_nil hb
  by_cases hg : g = 0 <;> simpa [hg, Template.seam] using h

theorem shape_pad (k : Nat) (l : Line ι) : shape (spaces k ++ l) = List.replicate k ' ' ++ shape l := by
  simp [shape, spaces, Glyph.shape]

theorem column_pad (k : Nat) (s : Str) : columnOf (List.replicate k ' ' ++ s) = k + columnOf s := by
  induction k with
  | zero => simp
  | succ k ih =>
    rw [List.replicate_succ, List.cons_append, columnOf, List.takeWhile_cons_of_pos (by rfl), List.length_cons]
    have := ih
    unfold columnOf at this ⊢
    omega

theorem blank_pad (k : Nat) (s : Str) : blank (List.replicate k ' ' ++ s) = blank s := by
  simp only [blank, List.all_append]
  simp

theorem strip_pad (k : Nat) (l : Line ι) : strip (spaces k ++ l) = spaces k ++ strip l := by
  rw [strip_append, strip_spaces]

theorem voids_pad (k : Nat) (l : Line ι) : voids (spaces k ++ l) = voids l := by
  rw [voids_append, show voids (spaces k : Line ι) = [] by simp [voids, spaces, Doc.isSpace], List.nil_append]

theorem hollow_pad (k : Nat) (l : Line ι) : hollow (spaces k ++ l) = hollow l := by
  rw [hollow_voids, voids_pad, hollow_voids]

theorem starts_pad (k : Nat) (l : Line ι) : startsVoid (spaces k ++ l) = startsVoid l := by
  rw [starts_voids, voids_pad, starts_voids]

theorem hollow_blank {l : Line ι} (h : blank (shape l) = true) : hollow l = true := by
  rw [hollow_voids, (blank_voids l).1 h]
  rfl

/-- The first thing on a line is still there. -/
theorem column_strip {l : Line ι} (h : startsVoid l = false) : columnOf (shape (strip l)) = columnOf (shape l) := by
  induction l with
  | nil => rfl
  | cons x l ih =>
    cases hx : Doc.isSpace x with
    | true =>
      have hs : (x.shape == ' ') = true := by rw [← isSpace_shape]; exact hx
      have h' : startsVoid l = false := by rw [← h]; simp [startsVoid, List.dropWhile_cons_of_pos hx]
      have e : strip (x :: l) = x :: strip l := List.filter_cons_of_pos (by simp [space_void hx])
      rw [e]
      have ih := ih h'
      simp only [columnOf, shape, List.map_cons] at ih ⊢
      rw [List.takeWhile_cons_of_pos (by exact hs), List.takeWhile_cons_of_pos (by exact hs), List.length_cons, List.length_cons, ih]
    | false =>
      have hs : (x.shape == ' ') = false := by rw [← isSpace_shape]; exact hx
      have hv : x.isVoid = false := by rw [← h]; simp [startsVoid, hx]
      have e : strip (x :: l) = x :: strip l := List.filter_cons_of_pos (by simp [hv])
      rw [e]
      simp only [columnOf, shape, List.map_cons]
      rw [List.takeWhile_cons_of_neg (by simp [hs]), List.takeWhile_cons_of_neg (by simp [hs])]

/-- Only lines that write nothing start with a hole that writes nothing. -/
def Clean (ls : List (Line ι)) : Prop := ∀ l ∈ ls, hollow l = true ∨ startsVoid l = false

theorem neat_cons (prev : Option Nat) (l : Line ι) (ls : List (Line ι)) : ∃ b, neat prev (l :: ls) =
    if blank (shape l) then neat prev ls
    else if hollow l then b && neat (prev.map fun _ => columnOf (shape l)) ls
    else !startsVoid l && neat (some (columnOf (shape l))) ls := by
  cases prev <;> exact ⟨_, by rw [neat]⟩

theorem neat_clean (ls : List (Line ι)) : ∀ prev, neat prev ls = true → Clean ls := by
  induction ls with
  | nil => intro prev _ l hl; cases hl
  | cons m ls ih =>
    intro prev h l hl
    obtain ⟨b, e⟩ := neat_cons prev m ls
    rw [e] at h
    rcases List.mem_cons.1 hl with rfl | hl
    · split at h
      · rename_i hb; exact .inl (hollow_blank hb)
      · split at h
        · rename_i hh; exact .inl hh
        · rw [Bool.and_eq_true] at h; exact .inr (by simpa using h.1)
    · split at h
      · exact ih _ h l hl
      · split at h
        · rw [Bool.and_eq_true] at h; exact ih _ h.2 l hl
        · rw [Bool.and_eq_true] at h; exact ih _ h.2 l hl

theorem things_voids (ls : List (Line ι)) : (things ls).map Glyph.isVoid = ls.flatMap voids := by
  induction ls with
  | nil => rfl
  | cons l ls ih =>
    rw [List.flatMap_cons, ← ih, things, List.flatten_cons, List.filter_append, List.map_append]
    rfl

section

variable (C : Compiler) (S : Syn) (L : Lang ι) (cfg : Config) (H : Host ι (List TT) Env)

/-- The holes of lines, the first of which starts at a place. -/
def HeldAll : Env → Place → List (Line ι) → Env → Prop
  | ρ, _, [], ρ' => ρ' = ρ
  | ρ, p, l :: ls, ρ' => ∃ ρ₁, Held C S L cfg H ρ p l ρ₁ ∧ HeldAll ρ₁ (go p (sourceLine l ++ ['\n'])) ls ρ'

variable (ρ : Env)

/-- Lines are read as rows of pieces. -/
structure Lined (p : Place) (k base above : Nat) (ls : List (Line ι)) (F : List Piece) (rows : List (GRow ι))
    (ρ' : Env) : Prop where
  runs : ∀ t, Halt t → Runs C p (sourceOf ls) t (F.flatMap Piece.raws)
  valid : ∀ f ∈ F, f.Valid C S
  chain : ChainRows H ρ base (F.map (Piece.node C)) rows ρ'
  lines : Clean (Doc.pad k ls) → ∀ past prev kept,
    Template.outLines cfg gV past (Template.leftRows gVoid prev kept (rows.map GRow.row)) =
    Doc.rendered cfg past false (Doc.left prev (decide (0 < kept)) (decide (0 < above)) (Doc.pad k ls))
  next : Template.nextColumn gVoid (rows.map GRow.row) = below (Doc.pad k ls)
  tidy : ∀ q, neat (some q) (Doc.pad k ls) = true → Template.Tidy gVoid q (rows.map GRow.row)
  top : neat none (Doc.pad k ls) = true → (∃ l ∈ ls, hollow l = false) →
    ∃ (top : List (GRow ι)) (l : GRow ι) (rs : List (GRow ι)), rows = top ++ l :: rs ∧
      Template.Top gVoid l.column (top.map GRow.row) ∧ l.first.2 ≠ [] ∧ Template.Tidy gVoid l.column (rs.map GRow.row)
  like : Like (rows.flatMap (fun l => l.all.map (fun G => G.2.isEmpty))) (ls.flatMap voids)
  offside : ∀ past, Text.offside past ((Doc.pad k ls).map shape) = true →
    Template.Offside past (rows.map GRow.row)
  level : ∀ past, Template.lastLevel past (rows.map GRow.row) = lastDepth past ((Doc.pad k ls).map shape)
  imports : rows.flatMap (fun l => l.all.flatMap (fun G => inserted G.1)) = importsOf ls
  blocks : ∀ l ∈ rows, ∀ G ∈ l.all, Makes L cfg G.1 G.2
  brackets : F.flatMap Piece.bracket = (Macro.textOf (ls.map shape)).filter isBracket
  none : rows = [] → ∀ l ∈ ls, blank (shape l) = true
  nil : ls = [] → F = []

end

section

variable {C : Compiler} {S : Syn} {L : Lang ι} {cfg : Config} {H : Host ι (List TT) Env} {ρ : Env}

theorem offside_cons (past : List Nat) (l : Str) (ls : List Str) : Text.offside past (l :: ls) =
    if blank l then Text.offside past ls
    else (match past with
      | [] => true
      | p :: past => decide (Legal (columnOf l) p past)) && Text.offside (columnOf l :: past) ls := by
  cases past <;> rw [Text.offside]

theorem filter_break (s : Str) : ('\n' :: s).filter isBracket = s.filter isBracket :=
  List.filter_cons_of_neg (by decide)

theorem textOf_cons (l : Str) (ls : List Str) : ∃ s, Macro.textOf (l :: ls) = l ++ s ∧
    ((ls = [] ∧ s = []) ∨ (ls ≠ [] ∧ s = '\n' :: Macro.textOf ls)) := by
  cases ls with
  | nil => exact ⟨[], by simp [Macro.textOf], .inl ⟨rfl, rfl⟩⟩
  | cons m ls => exact ⟨_, rfl, .inr ⟨by simp, rfl⟩⟩

/-- A line in front of others. -/
theorem lined_cons {p : Place} {n n' k base above : Nat} {l : Line ι} {ls : List (Line ι)} {F r e F' rows ρ₁ ρ'}
    (hp : base + above = n) (h : Pieces C S L cfg H ρ p ⟨n, 0⟩ k l F r e ρ₁) (hn' : base < n') (hline : n' = e.line + 1)
    (h' : Lined C S L cfg H ρ₁ (go p (sourceLine l ++ ['\n'])) 0 (if r = [] then base else n')
      (if r = [] then n' - base else 0) ls F' rows ρ') :
    ∃ rows', Lined C S L cfg H ρ p k base above (l :: ls) (F ++ F') rows' ρ' := by
  have hq : go p (sourceLine l ++ ['\n']) = (go p (sourceLine l)).next '\n' := by rw [go_append]; rfl
  have hpad0 : Doc.pad 0 ls = ls := by
    cases ls <;> simp [Doc.pad]
  have hpad : Doc.pad k (l :: ls) = (spaces k ++ l) :: ls := rfl
  have hruns : ∀ t, Halt t → Runs C p (sourceOf (l :: ls)) t ((F ++ F').flatMap Piece.raws) := by
    intro t ht
    rw [List.flatMap_append]
    obtain ⟨s, e1, e2⟩ := textOf_cons (sourceLine l) (ls.map sourceLine)
    unfold sourceOf
    rw [List.map_cons, e1]
    rcases e2 with ⟨e2, rfl⟩ | ⟨-, rfl⟩
    · have : ls = [] := by simpa using e2
      subst this
      have : F'.flatMap Piece.raws = [] := by rw [h'.nil rfl]; rfl
      rw [this, List.append_nil, List.append_nil]
      exact h.runs t ht
    · refine (h.runs _ (halt_break _)).append ?_
      have h0 := h'.runs t ht
      rw [hq] at h0
      exact Runs.append (a := ['\n']) (x := []) (runs_blank (by decide) _) h0
  have hbrk : (F ++ F').flatMap Piece.bracket = (Macro.textOf ((l :: ls).map shape)).filter isBracket := by
    rw [List.flatMap_append, h.brackets, h'.brackets]
    obtain ⟨s, e1, e2⟩ := textOf_cons (shape l) (ls.map shape)
    rw [List.map_cons, e1, List.filter_append]
    rcases e2 with ⟨e2, rfl⟩ | ⟨-, rfl⟩
    · rw [e2]; rfl
    · rw [filter_break]
  have hval : ∀ f ∈ F ++ F', f.Valid C S := by
    intro f hf
    rcases List.mem_append.1 hf with hf | hf
    · exact h.valid f hf
    · exact h'.valid f hf
  have hshape : ((Doc.pad k (l :: ls)).map shape) = shape (spaces k ++ l) :: ls.map shape := rfl
  have hbl : blank (shape (spaces k ++ l)) = blank (shape l) := by rw [shape_pad, blank_pad]
  have hho := hollow_pad k l
  cases r with
  | nil =>
    have hb : blank (shape l) = true := h.none.1 rfl
    have hF : F = [] := by
      cases F with
      | nil => rfl
      | cons f F => have := h.chain; cases this
    subst hF
    have hρ : ρ₁ = ρ := by
      have := h.chain
      cases this
      rfl
    subst hρ
    rw [if_pos rfl, if_pos rfl] at h'
    have hpos : decide (0 < n' - base) = true := decide_eq_true (by omega)
    have hl := h'.lines
    have hx := h'.next
    have ht := h'.tidy
    have htop := h'.top
    have ho := h'.offside
    have hd := h'.level
    rw [hpad0] at hl hx ho hd
    rw [hpos] at hl
    have hhb : hollow l = true := hollow_blank hb
    refine ⟨rows, hruns, hval, h'.chain, fun hcl past prev kept => ?_, ?_, fun q hq' => ?_, fun hn hi => ?_, ?_, fun past hp' => ?_,
      fun past => ?_, ?_, h'.blocks, hbrk, ?_, by simp⟩
    · rw [hl (fun m hm => hcl m (by rw [hpad]; simp [hm])) past, hpad, Doc.left, hbl, if_pos hb]
    · rw [hx, hpad, below, hho, if_pos hhb]
    · rw [hpad, neat, hbl, if_pos hb] at hq'
      exact ht q (by rw [hpad0]; exact hq')
    · rw [hpad, neat, hbl, if_pos hb] at hn
      refine htop (by rw [hpad0]; exact hn) ?_
      obtain ⟨m, hm, hi⟩ := hi
      rcases List.mem_cons.1 hm with rfl | hm
      · rw [hhb] at hi; cases hi
      · exact ⟨m, hm, hi⟩
    · rw [List.flatMap_cons, (blank_voids l).1 hb]
      exact h'.like
    · rw [hshape, offside_cons, hbl, if_pos hb] at hp'
      exact ho past hp'
    · rw [hd past, hshape]
      have : ∀ past, lastDepth past (shape (spaces k ++ l) :: ls.map shape) = lastDepth past (ls.map shape) := by
        intro past
        cases past <;> rw [lastDepth, hbl, if_pos hb]
      exact (this past).symm
    · rw [h'.imports]
      show _ = (l :: ls).flatMap _
      rw [List.flatMap_cons, ← h.imports]
      rfl
    · intro hr m hm
      rcases List.mem_cons.1 hm with rfl | hm
      · exact hb
      · exact h'.none hr m hm
  | cons x r =>
    obtain ⟨g, G⟩ := x
    have hb : blank (shape l) = false := by
      cases hb : blank (shape l) with
      | false => rfl
      | true => have := h.none.2 hb; cases this
    rw [if_neg (by simp), if_neg (by simp)] at h'
    have hl := h'.lines
    have hx := h'.next
    have ht := h'.tidy
    have htop := h'.top
    have ho := h'.offside
    have hd := h'.level
    rw [hpad0] at hl hx ht htop ho hd
    have hg : g = columnOf (shape (spaces k ++ l)) := by
      rw [shape_pad, column_pad]
      exact h.first _ _ rfl
    let row : GRow ι := ⟨above, g, G, r⟩
    have hall : ∀ G' ∈ row.all, Makes L cfg G'.1 G'.2 := by
      intro G' hG'
      rcases List.mem_cons.1 hG' with rfl | hG'
      · exact h.blocks (g, row.first) (by simp [row])
      · obtain ⟨x, hx, rfl⟩ := List.mem_map.1 hG'
        exact h.blocks x (by simp [show x ∈ r from hx])
    have hlk : Like (row.all.map (fun G => G.2.isEmpty)) (voids l) := by
      have := h.like
      simpa [GRow.all, row, Function.comp_def] using this
    have hvoid : row.row.void gVoid = hollow l := by
      rw [hollow_voids, ← hlk.all]
      simp [Template.Row.void, Template.Row.slots, GRow.row, gRest, GRow.all, Function.comp_def, slot_void]
    have hfirst : startsVoid l = G.2.isEmpty := by
      rw [starts_voids, ← hlk.head]
      rfl
    have hrow : hollow l = false → startsVoid l = false →
        (⟨0, 0, row.row.first, Template.leftRest gVoid 0 row.row.rest⟩ : Template.Row (Given ι)).lines gV =
          Doc.filled (Doc.tidy (strip (spaces k ++ l))) := by
      intro hh hsv
      have hG : G.2 ≠ [] := by rw [hfirst] at hsv; simpa using hsv
      have e0 : (⟨0, 0, row.row.first, Template.leftRest gVoid 0 row.row.rest⟩ : Template.Row (Given ι)) =
          (⟨0, 0, G, leftG 0 r⟩ : GRow ι).row := by
        show (⟨0, 0, gslot G, Template.leftRest gVoid 0 (gRest r)⟩ : Template.Row (Given ι)) = _
        rw [left_rest]
        rfl
      rw [e0, row_lead _ (fun G' hG' => by
        rcases List.mem_cons.1 hG' with rfl | hG'
        · exact hG
        · obtain ⟨x, hx, rfl⟩ := List.mem_map.1 hG'
          exact left_ne r 0 x hx)]
      refine seam_cancel (g := g) (seam_ne _ _ _) (filled_ne _) ?_
      have e1 := h.lines 0
      rw [leftG, if_neg (by simpa using hG), lead, Nat.zero_add, Nat.zero_add, ← strip_pad,
        squeeze_tidy _ (by have := hollow_pad k l; rw [hh] at this; exact this),
        column_strip (by rw [starts_pad]; exact hsv), ← hg] at e1
      rw [e1]
      by_cases hg0 : g = 0
      · rw [if_pos hg0, if_pos hg0, List.nil_append, seam_nil _ (filled_ne _)]
      · rw [if_neg hg0, if_neg hg0]
        rfl
    refine ⟨row :: rows, hruns, hval, ?_, fun hcl past prev kept => ?_, ?_, fun q hq' => ?_, fun hn hi => ?_, ?_, fun past hp' => ?_,
      fun past => ?_, ?_, ?_, hbrk, by simp, by simp⟩
    · have hc := h.chain
      rw [List.map_append]
      generalize F.map (Piece.node C) = ns at hc
      cases hc with
      | @cons _ ρ₂ _ _ n stop _ _ ns _ _ hn hc =>
        refine .cons (row := row) ?_ hc ?_
        · show Acts H ρ n ⟨⟨base + above, g⟩, stop⟩ G.1 ρ₂
          rw [hp]
          simpa using hn
        · have h1 := h'.chain
          rw [hline] at h1
          exact h1
    · have hcl' : Clean ls := fun m hm => hcl m (by rw [hpad]; simp [hm])
      have hcl0 := hcl (spaces k ++ l) (by rw [hpad]; simp)
      rw [hho, starts_pad] at hcl0
      have hk : decide (0 < if prev = some g then kept + above else above) =
          (decide (0 < above) || (decide (0 < kept) && prev == some g)) := by
        by_cases hpr : prev = some g
        · rw [if_pos hpr]
          by_cases h1 : 0 < above
          · rw [decide_eq_true h1, decide_eq_true (by omega)]; rfl
          · rw [decide_eq_false h1, show kept + above = kept by omega]; simp [hpr]
        · rw [if_neg hpr]; simp [hpr]
      rw [List.map_cons, Template.leftRows, hvoid, hpad, Doc.left, hbl, if_neg (show ¬ blank (shape l) = true by simp [hb]), hho, ← hg,
        show row.row.column = g from rfl, show row.row.above = above from rfl]
      cases hh : hollow l with
      | true =>
        rw [if_pos rfl, if_pos rfl, ← hk]
        exact hl hcl' past _ _
      | false =>
        have hsv : startsVoid l = false := by
          rcases hcl0 with h | h
          · rw [hh] at h; cases h
          · exact h
        have hrow := hrow hh hsv
        have hbs : blank (shape (strip (spaces k ++ l))) = false := by
          have := hollow_pad k l
          rw [hh] at this
          exact this
        have outc : ∀ (a c : Nat) (f : Template.Slot (Given ι)) r' rest, Template.outLines cfg gV past (⟨a, c, f, r'⟩ :: rest) =
            (if 0 < a ∧ past ≠ [] then [[]] else []) ++ ((Template.Row.lines gV ⟨0, 0, f, r'⟩).map (movedIn cfg (depth c past)) ++
              Template.outLines cfg gV (c :: past) rest) := fun _ _ _ _ _ => rfl
        rw [if_neg (show ¬ false = true by simp), if_neg (show ¬ false = true by simp), outc, hl hcl' (g :: past) (some g) 0]
        have e2 : ∀ b, Doc.rendered cfg past b (strip (spaces k ++ l) :: Doc.left (some g) false false ls) =
            (if b ∧ past ≠ [] then [[]] else []) ++ ((Doc.filled (Doc.tidy (strip (spaces k ++ l)))).map (movedIn cfg (depth g past)) ++
              Doc.rendered cfg (g :: past) false (Doc.left (some g) false false ls)) := by
          intro b
          rw [Doc.rendered, if_neg (by simp [hbs]), column_strip (by rw [starts_pad]; exact hsv), ← hg]
        have e3 : Doc.rendered cfg past false ((if (decide (0 < above) || (decide (0 < kept) && prev == some g)) = true then [[]] else []) ++
            strip (spaces k ++ l) :: Doc.left (some g) false false ls) =
            (if (decide (0 < above) || (decide (0 < kept) && prev == some g)) = true ∧ past ≠ [] then [[]] else []) ++
            ((Doc.filled (Doc.tidy (strip (spaces k ++ l)))).map (movedIn cfg (depth g past)) ++
              Doc.rendered cfg (g :: past) false (Doc.left (some g) false false ls)) := by
          by_cases hz : (decide (0 < above) || (decide (0 < kept) && prev == some g)) = true
          · rw [if_pos hz, List.singleton_append, Doc.rendered, if_pos (by rfl), e2 true, hz]
          · rw [if_neg hz, List.nil_append, e2 false]
            simp [hz]
        rw [e3, ← hrow, ← hk]
        simp only [decide_eq_true_eq]
        rfl
    · rw [List.map_cons, Template.nextColumn, hvoid, hpad, below, hho, hx, ← hg]
      rfl
    · rw [hpad, neat, hbl, if_neg (by simp [hb]), hho, starts_pad, ← hg] at hq'
      rw [List.map_cons, Template.Tidy, hvoid]
      cases hh : hollow l with
      | true =>
        rw [hh, if_pos rfl, Bool.and_eq_true] at hq'
        refine ⟨?_, ht g hq'.2⟩
        rw [if_pos rfl, hx, show row.row.column = g from rfl]
        simpa [or_assoc] using hq'.1
      | false =>
        rw [hh, if_neg (by simp), Bool.and_eq_true] at hq'
        refine ⟨?_, ht g hq'.2⟩
        rw [if_neg (by simp)]
        show G.2.isEmpty = false
        rw [← hfirst]
        simpa using hq'.1
    · rw [hpad, neat, hbl, if_neg (by simp [hb]), hho, starts_pad, ← hg] at hn
      cases hh : hollow l with
      | true =>
        rw [hh, if_pos rfl, Bool.and_eq_true] at hn
        obtain ⟨hn1, hn2⟩ := hn
        simp only [Bool.and_eq_true, decide_eq_true_eq, beq_iff_eq] at hn1
        obtain ⟨top, m, rs, t1, t2, t3, t4⟩ := htop hn2 (by
          obtain ⟨m, hm, hi⟩ := hi
          rcases List.mem_cons.1 hm with rfl | hm
          · rw [hh] at hi; cases hi
          · exact ⟨m, hm, hi⟩)
        have hcol : m.column = g := by
          have hnc : ∀ top : List (GRow ι), Template.Top gVoid m.column (top.map GRow.row) →
              Template.nextColumn gVoid ((top ++ m :: rs).map GRow.row) = some m.column := by
            intro top
            induction top with
            | nil =>
              intro _
              rw [List.nil_append, List.map_cons, Template.nextColumn, if_neg]
              · rfl
              · have : m.row.first.void gVoid = false := by
                  show m.first.2.isEmpty = false
                  simpa using t3
                simp [Template.Row.void, Template.Row.slots, this]
            | cons t top ih =>
              intro htp
              rw [List.cons_append, List.map_cons, Template.nextColumn, if_pos (htp t.row (by simp)).1]
              exact ih (fun x hx => htp x (by rw [List.map_cons]; exact List.mem_cons_of_mem _ hx))
          have := hnc top t2
          rw [← t1, hx, hn1.2] at this
          simpa using this.symm
        refine ⟨row :: top, m, rs, by rw [t1]; rfl, ?_, t3, t4⟩
        intro x hx
        rw [List.map_cons] at hx
        rcases List.mem_cons.1 hx with rfl | hx
        · refine ⟨by rw [hvoid]; exact hh, ?_, hcol.symm⟩
          have hc := hlk.count
          have : (voids l).length = 1 := by
            have := congrArg List.length (things_voids [spaces k ++ l])
            rw [List.length_map, hn1.1] at this
            simpa [voids_pad] using this.symm
          rw [this] at hc
          have : r = [] := by
            cases r with
            | nil => rfl
            | cons => simp [GRow.all, row] at hc
          show gRest r = []
          rw [this]
          rfl
        · exact t2 x hx
      | false =>
        rw [hh, if_neg (by simp), Bool.and_eq_true] at hn
        refine ⟨[], row, rows, rfl, (fun x hx => by cases hx), ?_, ht g hn.2⟩
        show G.2 ≠ []
        have := hn.1
        rw [hfirst] at this
        simpa using this
    · rw [List.flatMap_cons, List.flatMap_cons]
      exact hlk.append h'.like
    · rw [hshape, offside_cons, hbl, if_neg (by simp [hb]), Bool.and_eq_true, ← hg] at hp'
      rw [List.map_cons]
      cases past with
      | nil => exact ho _ hp'.2
      | cons q past => exact ⟨of_decide_eq_true hp'.1, ho _ hp'.2⟩
    · have : ∀ past, lastDepth past (shape (spaces k ++ l) :: ls.map shape) = lastDepth (g :: past) (ls.map shape) := by
        intro past
        cases past <;> rw [lastDepth, hbl, if_neg (by simp [hb]), ← hg]
      rw [hshape, this, ← hd]
      cases past <;> rfl
    · show (row :: rows).flatMap _ = (l :: ls).flatMap _
      rw [List.flatMap_cons, h'.imports, List.flatMap_cons, ← h.imports]
      simp [GRow.all, row, importsOf, List.flatMap_map]
    · intro m hm
      rcases List.mem_cons.1 hm with rfl | hm
      · exact hall
      · exact h'.blocks m hm

theorem go_line (s : Str) : ∀ q : Place, q.line ≤ (go q s).line := by
  induction s with
  | nil => intro q; exact Nat.le_refl _
  | cons c s ih =>
    intro q
    refine Nat.le_trans ?_ (ih (q.next c))
    unfold Place.next
    split <;> simp

theorem lined_nil (p : Place) (k base above : Nat) : Lined C S L cfg H ρ p k base above [] [] [] ρ := by
  refine ⟨fun t _ => runs_nil p t, by simp, .nil, fun _ _ _ _ => by simp [Template.outLines, Template.leftRows, Doc.pad, Doc.left, Doc.rendered],
    rfl, fun _ _ => trivial, fun _ h => by simp at h, like_nil, fun past _ => ?_, fun past => ?_, rfl, by simp, rfl,
    by simp, by simp⟩
  · cases past <;> trivial
  · cases past <;> rfl

theorem text_lined {ρ' : Env} (ls : List (Line ι)) : ∀ (ρ : Env) (p : Place) (base above : Nat), base + above = p.line →
    (∀ l ∈ ls, Sound l) → HeldAll .nightly S L cfg H ρ p ls ρ' →
    ∃ F rows, Lined .nightly S L cfg H ρ p p.column base above ls F rows ρ' := by
  induction ls with
  | nil =>
    intro ρ p base above _ _ hh
    cases hh
    exact ⟨[], [], lined_nil p _ base above⟩
  | cons l ls ih =>
    intro ρ p base above hp hs hh
    obtain ⟨ρ₁, h1, h2⟩ := hh
    have hl := hs l (by simp)
    obtain ⟨F, r, e, hP⟩ := line_pieces (C := .nightly) l.length l (Nat.le_refl _) ρ p ⟨p.line, 0⟩ p.column hl.chars hl.apart
      hl.numbers hl.loose h1 (by simp [Compiler.pos])
    have hq : go p (sourceLine l ++ ['\n']) = (go p (sourceLine l)).next '\n' := by rw [go_append]; rfl
    have hcol : (go p (sourceLine l ++ ['\n'])).column = 0 := by rw [hq]; simp [Place.next]
    have hline : (go p (sourceLine l ++ ['\n'])).line = (go p (sourceLine l)).line + 1 := by rw [hq]; simp [Place.next]
    have hle := go_line (sourceLine l) p
    obtain ⟨F', rows, hL⟩ := ih ρ₁ (go p (sourceLine l ++ ['\n']))
      (if r = [] then base else (go p (sourceLine l ++ ['\n'])).line)
      (if r = [] then (go p (sourceLine l ++ ['\n'])).line - base else 0)
      (by split <;> omega) (fun m hm => hs m (by simp [hm])) h2
    rw [hcol] at hL
    obtain ⟨rows', h⟩ := lined_cons hp hP (by omega) (by rw [hline]; exact congrArg (· + 1) hP.line.symm) hL
    exact ⟨_, rows', h⟩

/-- One line, on any compiler. -/
theorem line_lined {ρ' : Env} {l : Line ι} {p : Place} (hl : Sound l) (hh : Held C S L cfg H ρ p l ρ') :
    ∃ F rows, Lined C S L cfg H ρ p (C.pos p).column (C.pos p).line 0 [l] F rows ρ' := by
  obtain ⟨F, r, e, hP⟩ := line_pieces (C := C) l.length l (Nat.le_refl _) ρ p ⟨(C.pos p).line, 0⟩ (C.pos p).column hl.chars hl.apart
    hl.numbers hl.loose hh (by simp)
  have hle : (C.pos p).line ≤ e.line := by
    rw [hP.line]
    cases C with
    | stable => exact Nat.le_refl _
    | nightly => exact go_line _ _
  obtain ⟨rows', h⟩ := lined_cons (n' := e.line + 1) (ls := []) (Nat.add_zero _) hP (by omega) rfl (lined_nil _ _ _ _)
  exact ⟨_, rows', h⟩

/-- What a text means. -/
structure Meant (C : Compiler) (S : Syn) (L : Lang ι) (cfg : Config) (H : Host ι (List TT) Env) (ρ : Env) (k : Nat) (src : Str) (ls : List (Line ι))
    (p : Place) (ts : List TT) (ns : List (Node (List TT))) (r : Bool) (ss : List (Stmt ι (List TT))) : Prop where
  reads : ReadsAs C p src Halt ts
  means : Means S (.nodes ts ns)
  ink : emptyText ns = false
  quoted : Macro.quote none ns = .ok (r, ss)
  lines : toVec L cfg (history (runBlock H ρ ss)).items = some (Doc.linesOf cfg k ls)
  uniform : Template.Uniform L ((runBlock H ρ ss).flatMap callItems)
  block : lastDepth [] ((Doc.pad k ls).map shape) = 0 → framed ls = true → Template.Block L cfg (runBlock H ρ ss)
  imports : inserted (runBlock H ρ ss) = importsOf ls
  leads : leadsWithSpace L.langItem (history (runBlock H ρ ss)).items = false

theorem lined_meant (hv : ∀ ρ e, ∀ c ∈ H.value ρ e, ¬ EmptyCall c) (hs : ∀ ρ e, ∀ c ∈ H.scope ρ e, ¬ EmptyCall c)
    (hQ : HomQuote L) {k base : Nat} {ls : List (Line ι)} (hf : Fit k ls) {p : Place} {F rows} {ρ' : Env}
    (h : Lined C S L cfg H ρ p k base 0 ls F rows ρ') : ∃ ts ns r ss, Meant C S L cfg H ρ k (sourceOf ls) ls p ts ns r ss := by
  obtain ⟨top, l, rs, e, t1, t2, t3⟩ := h.top hf.neat hf.ink
  obtain ⟨ts, ns, b1, b2, b3⟩ := pieces_balanced h.valid hf.nested h.brackets
  have hc := h.chain
  have hlk := h.like
  rw [← b3] at hc
  have hrows := h.lines (neat_clean _ _ hf.neat) [] none 0
  have hoff := h.offside [] hf.offside
  have hblk := h.blocks
  have hlev := h.level []
  have himp := h.imports
  rw [e] at hc hrows hoff hblk hlev himp hlk
  obtain ⟨r, ss, q1, q2, q3, q4, q5, q6, q7⟩ := doc_vec H hv hs ρ L hQ cfg hc hoff hblk t1 t2 t3
  refine ⟨ts, ns, r, ss, ⟨_, b1, h.runs⟩, b2, ?_, q1, ?_, q4, ?_, ?_, q7⟩
  · rw [← ink_flatten, rows_ink hc]
  · rw [q3, hrows]
    rfl
  · intro hl0 hfr
    rw [framed, Bool.and_eq_true] at hfr
    rw [← things_voids] at hlk
    have hhead := hlk.head
    have hlast := hlk.last
    rw [List.head?_map] at hhead
    rw [List.getLast?_map] at hlast
    have htop : top = [] := by
      cases top with
      | nil => rfl
      | cons t top =>
        have hv := (t1 t.row (by simp)).1
        have hv : t.first.2.isEmpty = true := by
          have := List.all_eq_true.1 hv t.row.first (by simp [Template.Row.slots])
          exact this
        rw [List.cons_append, List.flatMap_cons, GRow.all, List.map_cons, List.cons_append, List.head?_cons, hv] at hhead
        cases hth : (things ls).head? with
        | none => rw [hth] at hhead; cases hhead
        | some x =>
          rw [hth] at hhead hfr
          have : x.isVoid = true := (Option.some.inj hhead).symm
          have h2 := hfr.1
          rw [Option.any_some, this] at h2
          cases h2
    subst htop
    refine q5 rfl ?_ (by rw [← hl0]; exact hlev)
    intro m hm s hs'
    rw [List.getLast?_map] at hm
    cases hz : (l :: rs).getLast? with
    | none => rw [hz] at hm; cases hm
    | some z =>
      rw [hz] at hm
      cases hm
      obtain ⟨us, hus⟩ := List.getLast?_eq_some_iff.1 hz
      have hsl : z.row.slots = z.all.map gslot := by
        simp [Template.Row.slots, GRow.row, gRest, GRow.all, Function.comp_def]
      rw [hsl, List.getLast?_map] at hs'
      cases hG : z.all.getLast? with
      | none => rw [hG] at hs'; cases hs'
      | some G =>
        rw [hG] at hs'
        cases hs'
        rw [List.nil_append, hus, List.flatMap_append, List.getLast?_append_of_ne_nil _ (by simp [GRow.all]),
          List.flatMap_cons, List.flatMap_nil, List.append_nil, List.getLast?_map, hG] at hlast
        cases hth : (things ls).getLast? with
        | none => rw [hth] at hlast; cases hlast
        | some x =>
          rw [hth] at hlast hfr
          have : x.isVoid = G.2.isEmpty := (Option.some.inj hlast).symm
          have h2 := hfr.2
          rw [Option.any_some, this] at h2
          show G.2.isEmpty = false
          simpa using h2
  · rw [q6, himp]

/-- Text with one hole at most that writes nothing. -/
theorem lined_none (hv : ∀ ρ e, ∀ c ∈ H.value ρ e, ¬ EmptyCall c) (hs : ∀ ρ e, ∀ c ∈ H.scope ρ e, ¬ EmptyCall c)
    {ls : List (Line ι)} (h1 : (things ls).length ≤ 1) (h2 : (things ls).all Glyph.isVoid = true) {p : Place}
    {k base : Nat} {F rows} {ρ' : Env} (h : Lined C S L cfg H ρ p k base 0 ls F rows ρ') : ∃ ts ns r ss, ReadsAs C p (sourceOf ls) Halt ts ∧
      Means S (.nodes ts ns) ∧ emptyText ns = false ∧ Macro.quote none ns = .ok (r, ss) ∧
      runBlock H ρ ss = [] ∧ importsOf ls = [] := by
  have hv0 : ∀ x ∈ things ls, x.isVoid = true := List.all_eq_true.1 h2
  have hbr : (Macro.textOf (ls.map shape)).filter isBracket = [] := by
    have : ∀ ls : List (Line ι), (∀ x ∈ things ls, x.isVoid = true) → (Macro.textOf (ls.map shape)).filter isBracket = [] := by
      intro ls
      induction ls with
      | nil => intro _; rfl
      | cons l ls ih =>
        intro hx
        have hl : (shape l).filter isBracket = [] := by
          rw [List.filter_eq_nil_iff]
          intro c hc
          obtain ⟨x, hm, rfl⟩ := List.mem_map.1 hc
          cases hsp : Doc.isSpace x with
          | true =>
            rw [isSpace_shape] at hsp
            rw [beq_iff_eq.1 hsp]
            decide
          | false =>
            have := hx x (List.mem_filter.2 ⟨by simp [hm], by simp [hsp]⟩)
            cases x with
            | char => cases this
            | hole => exact (by decide : ¬ isBracket '$' = true)
        have ih := ih (fun x hm => hx x (by
          obtain ⟨m1, m2⟩ := List.mem_filter.1 hm
          exact List.mem_filter.2 ⟨by rw [List.flatten_cons]; exact List.mem_append_right _ m1, m2⟩))
        obtain ⟨s, e1, e2⟩ := textOf_cons (shape l) (ls.map shape)
        rw [List.map_cons, e1, List.filter_append, hl, List.nil_append]
        rcases e2 with ⟨-, rfl⟩ | ⟨-, rfl⟩
        · rfl
        · rw [filter_break]; exact ih
    exact this ls hv0
  obtain ⟨ts, ns, b1, b2, b3⟩ := pieces_balanced h.valid (s := []) rfl (by rw [h.brackets, hbr]; rfl)
  have hc := h.chain
  rw [← b3] at hc
  have hlk := h.like
  rw [← things_voids] at hlk
  have himp := h.imports
  have hcount := hlk.count
  have hall := hlk.all
  rw [List.length_map] at hcount
  have hall' : ((things ls).map Glyph.isVoid).all id = true := by
    rw [List.all_map]; exact h2
  rw [hall'] at hall
  have hink : emptyText ns = false := by rw [← ink_flatten, rows_ink hc]
  have hblk := h.blocks
  cases rows with
  | nil =>
    have hfl : Template.flatten ns = [] := by
      generalize Template.flatten ns = fs at hc
      cases hc
      rfl
    have hq : (Macro.quote none ns : Except Err (Bool × List (Stmt ι (List TT)))) = .ok (false, []) := by
      rw [quote_flatten, hfl]
      rfl
    exact ⟨ts, ns, false, [], ⟨_, b1, h.runs⟩, b2, hink, hq, rfl, himp.symm⟩
  | cons l rs =>
    have hr : rs = [] ∧ l.rest = [] := by
      rw [List.flatMap_cons, GRow.all] at hcount
      simp only [List.map_cons, List.cons_append, List.length_cons, List.length_append, List.length_map] at hcount
      constructor
      · cases rs with
        | nil => rfl
        | cons m rs =>
          rw [List.flatMap_cons, GRow.all] at hcount
          simp only [List.map_cons, List.cons_append, List.length_cons, List.length_append] at hcount
          omega
      · rw [← List.length_eq_zero_iff]; omega
    obtain ⟨rfl, hr⟩ := hr
    have hG : l.first.2 = [] := by
      rw [List.flatMap_cons, GRow.all] at hall
      simp at hall
      exact hall.1
    have hcs : l.first.1 = [] := by
      rcases hblk l (by simp) l.first (by simp [GRow.all]) with hB | hB
      · exact absurd hG (block_lines_ne hB)
      · exact hB.1
    obtain ⟨r, ss, q1, q2, q3⟩ := doc_none H hv hs ρ hc hcs hr
    refine ⟨ts, ns, r, ss, ⟨_, b1, h.runs⟩, b2, hink, q1, q3, ?_⟩
    rw [← himp]
    simp [GRow.all, hr, hcs, inserted]

end

end Genco.Proofs.DocFile
