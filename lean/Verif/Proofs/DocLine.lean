import Verif.Proofs.DocPieces

/-!
# Templates in source text: a line
-/

set_option autoImplicit false

namespace Genco.Proofs.DocFile

open Genco Macro Spec Spec.Text Spec.MacroFile Spec.Doc Genco.Proofs Genco.Proofs.TextFile

variable {ι Env : Type}

/-! ## Lines with holes -/

theorem isSpace_shape (x : Glyph ι) : Doc.isSpace x = (x.shape == ' ') := by cases x <;> rfl

theorem squeeze_ink_line {u : Line ι} (h : ∀ x ∈ u, Doc.isSpace x = false) (v : Line ι) :
    Doc.squeeze (u ++ v) = u ++ Doc.squeeze v := by
  induction u with
  | nil => rfl
  | cons c u ih =>
    rw [List.cons_append, Doc.squeeze, if_neg (by simp [h c (by simp)]), ih (fun d hd => h d (by simp [hd]))]
    rfl

def spaces (g : Nat) : Line ι := List.replicate g (.char ' ')

theorem squeeze_spaces (g : Nat) : Doc.squeeze (spaces g : Line ι) = [] := by
  induction g with
  | zero => rfl
  | succ g ih =>
    rw [spaces, List.replicate_succ, Doc.squeeze, if_pos]
    · exact ih
    · cases g <;> rfl

theorem squeeze_gap (g : Nat) {x : Glyph ι} (hx : Doc.isSpace x = false) (r : Line ι) :
    Doc.squeeze (spaces g ++ x :: r) = (if g = 0 then [] else [.char ' ']) ++ Doc.squeeze (x :: r) := by
  induction g with
  | zero => rfl
  | succ g ih =>
    cases g with
    | zero =>
      rw [show (spaces (0 + 1) : Line ι) ++ x :: r = .char ' ' :: x :: r from rfl, Doc.squeeze, if_neg (by simp [hx])]
      rfl
    | succ g =>
      rw [spaces, List.replicate_succ, List.cons_append, Doc.squeeze, if_pos]
      · simpa [spaces] using ih
      · simp [Doc.isSpace, List.replicate_succ]

theorem filled_ne (l : Line ι) : Doc.filled l ≠ [] := by
  cases l with
  | nil => simp [Doc.filled]
  | cons x l => cases x <;> exact seam_ne _ _ _

theorem filled_word (w : Str) (l : Line ι) : Doc.filled (w.map Glyph.char ++ l) = Template.seam [w] [] (Doc.filled l) := by
  induction w with
  | nil => exact (seam_nil _ (filled_ne l)).symm
  | cons c w ih =>
    rw [List.map_cons, List.cons_append, Doc.filled, ih, ← seam_assoc _ _ _ _ _ (by simp)]
    rfl

theorem source_word (w : Str) : sourceLine (w.map Glyph.char : Line ι) = w := by
  induction w with
  | nil => rfl
  | cons c w ih =>
    show [c] ++ sourceLine (w.map Glyph.char : Line ι) = _
    rw [ih]
    rfl

theorem source_append (a b : Line ι) : sourceLine (a ++ b) = sourceLine a ++ sourceLine b := List.flatMap_append

theorem shape_word (w : Str) : shape (w.map Glyph.char : Line ι) = w := by
  simp [shape, Function.comp_def, Glyph.shape]

theorem imports_word (w : Str) : (w.map Glyph.char : Line ι).flatMap Glyph.imports = [] := by
  rw [List.flatMap_map]
  exact List.flatMap_eq_nil_iff.2 (fun _ _ => rfl)

/-! ## The lines of pieces -/

/-- The lines of pieces with the spaces before them. -/
def lead : List (Nat × Given ι) → List Str
  | [] => [[]]
  | (g, G) :: r => Template.seam (if g = 0 then [[]] else [[' ']]) [] (Template.seam G.2 [] (lead r))

theorem lead_ne (r : List (Nat × Given ι)) : lead r ≠ [] := by
  cases r with
  | nil => simp [lead]
  | cons p r => exact seam_ne _ _ _

theorem seam_last (a : List Str) (ha : a ≠ []) : Template.seam a [] [[]] = a := by
  rcases List.eq_nil_or_concat a with rfl | ⟨a, x, rfl⟩
  · exact absurd rfl ha
  · simp [Template.seam]

theorem seam_space (a : List Str) (g : Nat) (b : List Str) (hb : b ≠ []) :
    Template.seam a (if g = 0 then [] else [' ']) b =
      Template.seam a [] (Template.seam (if g = 0 then [[]] else [[' ']]) [] b) := by
  obtain ⟨x, b, rfl⟩ := List.exists_cons_of_ne_nil hb
  by_cases hg : g = 0 <;> simp [hg, Template.seam]

theorem fold_lead (r : List (Nat × Given ι)) (h : ∀ x ∈ r, x.2.2 ≠ []) : ∀ a : List Str, a ≠ [] →
    (gRest r).foldl (fun a p => Template.seam a (if p.1 = 0 then [] else [' ']) (p.2.lines gV)) a =
      Template.seam a [] (lead r) := by
  induction r with
  | nil => intro a ha; exact (seam_last a ha).symm
  | cons p r ih =>
    obtain ⟨g, G⟩ := p
    intro a ha
    have hG : G.2 ≠ [] := h (g, G) (by simp)
    show (gRest r).foldl _ (Template.seam a (if g = 0 then [] else [' ']) G.2) = _
    rw [ih (fun x hx => h x (by simp [hx])) _ (seam_ne _ _ _), lead, seam_space _ _ _ hG,
      seam_assoc _ _ _ _ _ (seam_ne _ _ _)]
    congr 1
    exact seam_assoc _ _ _ _ _ hG

theorem row_lead (l : GRow ι) (h : ∀ G ∈ l.all, G.2 ≠ []) :
    l.row.lines gV = Template.seam l.first.2 [] (lead l.rest) :=
  fold_lead l.rest (fun x hx => h x.2 (by simp only [GRow.all, List.mem_cons, List.mem_map]; exact .inr ⟨x, hx, rfl⟩)) _
    (h l.first (by simp [GRow.all]))

/-! ## Pieces that write nothing -/

/-- What is left of pieces. -/
def leftG : Nat → List (Nat × Given ι) → List (Nat × Given ι)
  | _, [] => []
  | m, (n, G) :: r => if G.2.isEmpty then leftG (m + n) r else (m + n, G) :: leftG 0 r

theorem left_rest (r : List (Nat × Given ι)) : ∀ m, Template.leftRest gVoid m (gRest r) = gRest (leftG m r) := by
  induction r with
  | nil => intro m; rfl
  | cons x r ih =>
    obtain ⟨n, G⟩ := x
    intro m
    show (if G.2.isEmpty then Template.leftRest gVoid (m + n) (gRest r) else (m + n, gslot G) :: Template.leftRest gVoid 0 (gRest r)) = _
    rw [ih, ih, leftG]
    split <;> rfl

theorem left_ne (r : List (Nat × Given ι)) : ∀ m, ∀ x ∈ leftG m r, x.2.2 ≠ [] := by
  induction r with
  | nil => intro m x hx; cases hx
  | cons x r ih =>
    obtain ⟨n, G⟩ := x
    intro m x hx
    rw [leftG] at hx
    split at hx
    · exact ih _ x hx
    · rename_i hG
      rcases List.mem_cons.1 hx with rfl | hx
      · simpa using hG
      · exact ih _ x hx

theorem left_same (r : List (Nat × Given ι)) (h : ∀ x ∈ r, x.2.2 ≠ []) : leftG 0 r = r := by
  induction r with
  | nil => rfl
  | cons x r ih =>
    obtain ⟨n, G⟩ := x
    rw [leftG, if_neg (by simpa using h (n, G) (by simp)), ih (fun x hx => h x (by simp [hx])), Nat.zero_add]

theorem strip_append (a b : Line ι) : strip (a ++ b) = strip a ++ strip b := List.filter_append ..

theorem strip_spaces (g : Nat) : strip (spaces g : Line ι) = spaces g := by
  simp [strip, spaces, Glyph.isVoid]

/-- Runs of marks: the ends are the same, and there are not more. -/
structure Like (a b : List Bool) : Prop where
  head : a.head? = b.head?
  last : a.getLast? = b.getLast?
  all : a.all id = b.all id
  count : a.length ≤ b.length

theorem like_nil : Like [] [] := ⟨rfl, rfl, rfl, Nat.le_refl _⟩

theorem Like.append {a b c d : List Bool} (h : Like a b) (h' : Like c d) : Like (a ++ c) (b ++ d) := by
  refine ⟨?_, ?_, ?_, ?_⟩
  · rw [List.head?_append, List.head?_append, h.head, h'.head]
  · rw [List.getLast?_append, List.getLast?_append, h.last, h'.last]
  · rw [List.all_append, List.all_append, h.all, h'.all]
  · rw [List.length_append, List.length_append]
    have := h.count
    have := h'.count
    omega

theorem like_run {b : Bool} {l : List Bool} (hl : l ≠ []) (h : ∀ x ∈ l, x = b) : Like [b] l := by
  refine ⟨?_, ?_, ?_, ?_⟩
  · cases l with
    | nil => exact absurd rfl hl
    | cons x l => rw [h x (by simp)]; rfl
  · rcases List.eq_nil_or_concat l with rfl | ⟨l, x, rfl⟩
    · exact absurd rfl hl
    · rw [List.concat_eq_append, h x (by simp)]; simp
  · cases b with
    | true => exact (List.all_eq_true.2 (fun x hx => h x hx)).symm
    | false =>
      cases l with
      | nil => exact absurd rfl hl
      | cons x l => rw [h x (by simp)]; rfl
  · cases l with
    | nil => exact absurd rfl hl
    | cons => simp

/-- What is on a line, and if it writes nothing. -/
def voids (l : Line ι) : List Bool := (l.filter (fun x => !Doc.isSpace x)).map Glyph.isVoid

theorem voids_append (a b : Line ι) : voids (a ++ b) = voids a ++ voids b := by
  rw [voids, List.filter_append, List.map_append]; rfl

theorem space_void {x : Glyph ι} (h : Doc.isSpace x = true) : x.isVoid = false := by
  cases x with
  | char => rfl
  | hole => cases h

theorem hollow_voids (l : Line ι) : hollow l = (voids l).all id := by
  induction l with
  | nil => rfl
  | cons x l ih =>
    have e : hollow (x :: l) = ((x.isVoid || Doc.isSpace x) && hollow l) := by
      unfold hollow strip
      cases hx : x.isVoid with
      | true => rw [List.filter_cons_of_neg (by simp [hx])]; simp
      | false => rw [List.filter_cons_of_pos (by simp [hx]), isSpace_shape]; simp [shape, blank]
    rw [e, ih]
    unfold voids
    cases hx : Doc.isSpace x with
    | true => rw [List.filter_cons_of_neg (by simp [hx])]; simp
    | false => rw [List.filter_cons_of_pos (by simp [hx])]; simp

theorem starts_voids (l : Line ι) : startsVoid l = (voids l).head?.any id := by
  unfold startsVoid voids
  induction l with
  | nil => rfl
  | cons x l ih =>
    cases hx : Doc.isSpace x with
    | true => rw [List.dropWhile_cons_of_pos hx, List.filter_cons_of_neg (by simp [hx])]; exact ih
    | false => rw [List.dropWhile_cons_of_neg (by simp [hx]), List.filter_cons_of_pos (by simp [hx])]; rfl

theorem blank_voids (l : Line ι) : blank (shape l) = true ↔ voids l = [] := by
  rw [voids, List.map_eq_nil_iff, List.filter_eq_nil_iff, blank, shape, List.all_map, List.all_eq_true]
  refine forall_congr' fun x => forall_congr' fun _ => ?_
  rw [Function.comp, ← isSpace_shape]
  simp

/-! ## Holes -/

/-- What may follow a text. -/
def Loose (h r : Str) : Prop := ∀ a b, h.getLast? = some a → r.head? = some b → sticks a b = false

theorem Halt.loose {r : Str} (hr : Halt r) (h : Str) : Loose h r := by
  intro a b _ hb
  obtain ⟨h1, h2, h3⟩ := hr b hb
  have h1 : nameChar b = false := h1
  have h4 : b ≠ '#' ∧ b ≠ '\'' := ⟨by rintro rfl; revert h2; decide, by rintro rfl; revert h2; decide⟩
  simp [sticks, h1, h3, h4]

/-- A hole at a place: one node that makes a block of code, with these lines, or nothing. `ρ'` are the variables behind it. -/
structure Stood (C : Compiler) (S : Syn) (L : Lang ι) (cfg : Config) (H : Host ι (List TT) Env) (ρ : Env) (p : Place)
    (h : Str) (vs : List Str) (is : List ι) (ρ' : Env) : Prop where
  head : ∃ c r, h = c :: r ∧ (c = '$' ∨ c = '"' ∨ c = '\'')
  node : ∃ n cs, Acts H ρ n ⟨C.pos p, C.pos (go p h)⟩ cs ρ' ∧ Template.flattenNode n = [n] ∧ Makes L cfg cs vs ∧
    inserted cs = is ∧ ∀ j, ∃ ts, ReadsAs C p h (fun r => Loose h r ∧ jointOf r = j) ts ∧ Extends S ts n

/-- The holes of a line that starts at a place. -/
def Held (C : Compiler) (S : Syn) (L : Lang ι) (cfg : Config) (H : Host ι (List TT) Env) :
    Env → Place → Line ι → Env → Prop
  | ρ, _, [], ρ' => ρ' = ρ
  | ρ, p, .char c :: r, ρ' => Held C S L cfg H ρ (p.next c) r ρ'
  | ρ, p, .hole h vs is :: r, ρ' => ∃ ρ₁, Stood C S L cfg H ρ p h vs is ρ₁ ∧ Held C S L cfg H ρ₁ (go p h) r ρ'

section

variable (C : Compiler) (S : Syn) (L : Lang ι) (cfg : Config) (H : Host ι (List TT) Env) (ρ : Env)

/-- A line is read as pieces. -/
structure Pieces (p : Place) (a : Pos) (g : Nat) (l : Line ι) (F : List Piece) (r : List (Nat × Given ι)) (e : Pos)
    (ρ' : Env) : Prop where
  runs : ∀ t, Halt t → Runs C p (sourceLine l) t (F.flatMap Piece.raws)
  valid : ∀ f ∈ F, f.Valid C S
  chain : Chain H ρ a (F.map (Piece.node C)) r e ρ'
  line : e.line = (C.pos (go p (sourceLine l))).line
  lines : ∀ m, lead (leftG m r) = Doc.filled (Doc.squeeze (spaces (m + g) ++ strip l))
  imports : r.flatMap (fun x => inserted x.2.1) = l.flatMap Glyph.imports
  blocks : ∀ x ∈ r, Makes L cfg x.2.1 x.2.2
  like : Like (r.map (fun x => x.2.2.isEmpty)) (voids l)
  brackets : F.flatMap Piece.bracket = (shape l).filter isBracket
  none : r = [] ↔ blank (shape l) = true
  first : ∀ x r', r = x :: r' → x.1 = g + columnOf (shape l)
  stop : (l = [] → e = a) ∧ ∀ x, l.getLast? = some x → Doc.isSpace x = false → e = C.pos (go p (sourceLine l))
  plain : (∀ x ∈ l, ∃ c, x = .char c) → ∀ x ∈ r, ∃ w, w ≠ [] ∧ x.2 = ([.append (.literal (.static w))], [w])

variable {C S L cfg H ρ}

theorem pieces_nil (p : Place) (a : Pos) (g : Nat) (ha : a.line = (C.pos p).line) :
    Pieces C S L cfg H ρ p a g [] [] [] a ρ :=
  ⟨fun t _ => runs_nil p t, by simp, .nil, ha, fun m => by rw [show strip ([] : Line ι) = [] from rfl, List.append_nil, squeeze_spaces]; rfl, rfl, by simp, like_nil, rfl, by simp [shape, blank], by simp,
    ⟨fun _ => rfl, by simp⟩, by simp⟩

theorem pieces_space {p : Place} {a : Pos} {g : Nat} {l : Line ι} {F r e ρ'}
    (h : Pieces C S L cfg H ρ (p.next ' ') a (g + 1) l F r e ρ') : Pieces C S L cfg H ρ p a g (.char ' ' :: l) F r e ρ' := by
  refine ⟨fun t ht => ?_, h.valid, h.chain, h.line, fun m => ?_, h.imports, h.blocks, h.like, h.brackets, ?_, fun x r' hx => ?_,
    ⟨by simp, fun x hx hs => ?_⟩, fun hc => h.plain (fun x hx => hc x (by simp [hx]))⟩
  · exact Runs.append (a := [' ']) (runs_blank (by decide) _) (h.runs t ht)
  · rw [h.lines, ← Nat.add_assoc, spaces, spaces, List.replicate_succ', List.append_assoc]
    rfl
  · rw [h.none]
    simp [shape, Glyph.shape, blank]
  · rw [h.first x r' hx]
    simp [shape, Glyph.shape, columnOf]
    omega
  · cases l with
    | nil => cases hx; cases hs
    | cons y l => exact h.stop.2 x (by simpa using hx) hs

theorem pieces_step {p : Place} {a : Pos} {g : Nat} {x l : Line ι} {f : Piece} {G : Given ι} {F r e ρ₁ ρ'}
    (hx : x ≠ []) (hs : ∀ y ∈ x, Doc.isSpace y = false) (ha : C.pos p = ⟨a.line, a.column + g⟩)
    (hv : f.Valid C S) (hn : Acts H ρ (f.node C) ⟨C.pos p, C.pos (go p (sourceLine x))⟩ G.1 ρ₁)
    (hB : Makes L cfg G.1 G.2) (hi : inserted G.1 = x.flatMap Glyph.imports)
    (hb : f.bracket = (shape x).filter isBracket)
    (hr : ∀ t, Halt t → Runs C p (sourceLine x) (sourceLine l ++ t) f.raws)
    (he : ∀ y ∈ x, y.isVoid = G.2.isEmpty)
    (hf : ∀ z : Line ι, Doc.filled (x ++ z) = Template.seam G.2 [] (Doc.filled z))
    (hG : (∀ y ∈ x, ∃ c, y = .char c) → ∃ w, w ≠ [] ∧ G = ([.append (.literal (.static w))], [w]))
    (h : Pieces C S L cfg H ρ₁ (go p (sourceLine x)) (C.pos (go p (sourceLine x))) 0 l F r e ρ') :
    Pieces C S L cfg H ρ p a g (x ++ l) (f :: F) ((g, G) :: r) e ρ' := by
  obtain ⟨y, x', rfl⟩ := List.exists_cons_of_ne_nil hx
  have hy : (Glyph.shape y == ' ') = false := by rw [← isSpace_shape]; exact hs y (by simp)
  refine ⟨fun t ht => ?_, ?_, ?_, ?_, fun m => ?_, ?_, ?_, ?_, ?_, ?_, ?_, ⟨by simp, fun z hz hs' => ?_⟩, fun hc z hz => ?_⟩
  · rw [source_append, List.flatMap_cons]
    exact (hr t ht).append (h.runs t ht)
  · intro f' hf'
    rcases List.mem_cons.1 hf' with rfl | hf'
    · exact hv
    · exact h.valid f' hf'
  · rw [ha] at hn
    exact .cons hn h.chain
  · rw [h.line, source_append, go_append]
  · rw [leftG, strip_append]
    cases hG : G.2.isEmpty with
    | true =>
      rw [hG] at he
      rw [if_pos rfl, h.lines, show strip (y :: x') = [] from List.filter_eq_nil_iff.2 (fun z hz => by simp [he z hz])]
      rfl
    | false =>
      rw [hG] at he
      rw [if_neg (by simp), lead, h.lines, show strip (y :: x') = y :: x' from List.filter_eq_self.2 (fun z hz => by simp [he z hz]),
        List.cons_append, squeeze_gap _ (hs y (by simp)), ← List.cons_append, squeeze_ink_line hs]
      have e0 : (spaces (0 + 0) : Line ι) ++ strip l = strip l := rfl
      rw [e0]
      by_cases hg : m + g = 0
      · rw [if_pos hg, if_pos hg, List.nil_append, hf, seam_nil _ (seam_ne _ _ _)]
      · rw [if_neg hg, if_neg hg, List.singleton_append, Doc.filled, hf]
  · rw [List.flatMap_cons, List.flatMap_append, hi, h.imports]
  · intro z hz
    rcases List.mem_cons.1 hz with rfl | hz
    · exact hB
    · exact h.blocks z hz
  · rw [List.map_cons, ← List.singleton_append, voids_append]
    have e : voids (y :: x') = (y :: x').map Glyph.isVoid := by
      rw [voids, List.filter_eq_self.2 (fun z hz => by simp [hs z hz])]
    refine (like_run (by rw [e]; simp) (fun b hb => ?_)).append h.like
    rw [e] at hb
    obtain ⟨z, hz, rfl⟩ := List.mem_map.1 hb
    exact he z hz
  · rw [List.flatMap_cons, hb, h.brackets, shape, shape, shape, List.map_append, List.filter_append]
  · simp [shape, blank, hy]
  · intro z r' hz
    cases hz
    simp only [shape, List.cons_append, List.map_cons, columnOf]
    rw [List.takeWhile_cons_of_neg (by rw [hy]; simp)]
    rfl
  · rw [source_append, go_append]
    cases l with
    | nil => exact h.stop.1 rfl
    | cons u l =>
      refine h.stop.2 z ?_ hs'
      rw [← hz, List.getLast?_append_of_ne_nil _ (by simp)]
  · rcases List.mem_cons.1 hz with rfl | hz
    · exact hG (fun y hy => hc y (List.mem_append_left _ hy))
    · exact h.plain (fun y hy => hc y (List.mem_append_right _ hy)) z hz

theorem blockOf_word (L : Lang ι) (cfg : Config) {s : Str} (h : s ≠ []) :
    Template.BlockOf L cfg [.append (.literal (.static s))] [s] := by
  obtain ⟨h1, h2⟩ := block_text L cfg (.static s) h
  exact ⟨h1, .inr (fun i hi => by cases List.mem_singleton.1 hi; rfl), h2⟩

theorem makes_word (L : Lang ι) (cfg : Config) {s : Str} (h : s ≠ []) : Makes L cfg [.append (.literal (.static s))] [s] :=
  .inl (blockOf_word L cfg h)

theorem held_word {w : Str} {l : Line ι} {ρ' : Env} : ∀ {p : Place}, Held C S L cfg H ρ p (w.map Glyph.char ++ l) ρ' →
    Held C S L cfg H ρ (go p w) l ρ' := by
  induction w with
  | nil => intro p h; exact h
  | cons c w ih => intro p h; exact ih (p := p.next c) h

theorem numbers_word {w r : Str} (hw : w.all nameChar = true) : ∀ {b : Bool}, Spec.Text.numbers (some b) (w ++ r) = true →
    (b = true → w.all (fun c => c.isDigit || c == '_') = true) ∧ ∃ o, Spec.Text.numbers o r = true ∧ o ≠ none := by
  induction w with
  | nil => intro b h; exact ⟨fun _ => rfl, _, h, by simp⟩
  | cons c w ih =>
    intro b h
    rw [List.all_cons, Bool.and_eq_true] at hw
    rw [List.cons_append, Spec.Text.numbers, if_pos hw.1, Bool.and_eq_true] at h
    obtain ⟨h1, h2⟩ := ih hw.2 h.2
    refine ⟨fun hb => ?_, h2⟩
    subst hb
    rw [List.all_cons, h1 rfl]
    simpa using h.1

theorem numbers_none {r : Str} (h : ∃ o, Spec.Text.numbers o r = true ∧ o ≠ none) (hr : ∀ c, r.head? = some c → nameChar c = false) :
    Spec.Text.numbers none r = true := by
  obtain ⟨o, h, ho⟩ := h
  cases r with
  | nil => rfl
  | cons c r =>
    have hc := hr c rfl
    cases o with
    | none => exact absurd rfl ho
    | some b =>
      simp only [Spec.Text.numbers, hc, Bool.false_eq_true, if_false] at h ⊢
      exact h

theorem apart_drop {a : Str} : ∀ {b : Str}, Spec.Text.apart (a ++ b) = true → Spec.Text.apart b = true := by
  induction a with
  | nil => intro b h; exact h
  | cons c a ih => intro b h; exact ih (apart_cons h).1

theorem apart_last {b : Str} {c d : Char} : ∀ {a : Str}, Spec.Text.apart (a ++ c :: d :: b) = true →
    (nameChar c = true → d ≠ '#') := by
  intro a h hc
  have := (apart_cons (apart_drop (a := a) h)).2.2 hc
  simpa using this

theorem loose_word {w : Str} {l : Line ι} : loose (w.map Glyph.char ++ l) = true → loose l = true := by
  induction w with
  | nil => exact id
  | cons c w ih =>
    intro h
    refine ih ?_
    rw [List.map_cons, List.cons_append] at h
    cases hz : (w.map Glyph.char ++ l : Line ι) with
    | nil => rfl
    | cons y z =>
      rw [hz] at h
      cases y with
      | char d => exact h
      | hole => rw [loose] at h; rw [Bool.and_eq_true] at h; exact h.2; simp

theorem loose_next {x y : Glyph ι} {l : Line ι} (h : loose (x :: y :: l) = true)
    (hh : (∃ s vs is, x = .hole s vs is) ∨ ∃ s vs is, y = .hole s vs is) : Loose x.source y.source := by
  have h' : (x.source.getLast?).any (fun a => (y.source.head?).any (sticks a)) = false := by
    cases x with
    | hole => rw [loose] at h; rw [Bool.and_eq_true] at h; simpa using h.1; simp
    | char c =>
      cases y with
      | hole => rw [loose] at h; rw [Bool.and_eq_true] at h; simpa using h.1; simp
      | char d => rcases hh with ⟨_, _, _, h⟩ | ⟨_, _, _, h⟩ <;> cases h
  intro a b ha hb
  rw [ha, hb] at h'
  simpa using h'

theorem loose_tail {x : Glyph ι} {l : Line ι} (h : loose (x :: l) = true) : loose l = true := by
  cases l with
  | nil => rfl
  | cons y l =>
    cases x with
    | hole => rw [loose] at h; rw [Bool.and_eq_true] at h; exact h.2; simp
    | char c =>
      cases y with
      | char d => exact h
      | hole => rw [loose] at h; rw [Bool.and_eq_true] at h; exact h.2; simp

/-- What a line starts with. -/
theorem source_head {l : Line ι} {p : Place} {ρ' : Env} (h : Held C S L cfg H ρ p l ρ')
    {c : Char} {t : Str} (hc : (sourceLine l ++ t).head? = some c) :
    (l = [] ∧ t.head? = some c) ∨ (∃ l', l = .char c :: l') ∨
      (∃ s vs is l', l = .hole (c :: s) vs is :: l' ∧ (c = '$' ∨ c = '"' ∨ c = '\'')) := by
  cases l with
  | nil => exact .inl ⟨rfl, hc⟩
  | cons x l =>
    cases x with
    | char d =>
      cases hc
      exact .inr (.inl ⟨l, rfl⟩)
    | hole s vs is =>
      obtain ⟨_, hst, -⟩ := h
      obtain ⟨d, r, rfl, hd⟩ := hst.head
      cases hc
      exact .inr (.inr ⟨r, vs, is, l, rfl, hd⟩)

theorem line_pieces (k : Nat) {ρ' : Env} : ∀ (l : Line ι), l.length ≤ k → ∀ (ρ : Env) (p : Place) (a : Pos) (g : Nat),
    (∀ c, Glyph.char c ∈ l → plainChar c = true ∧ c ≠ '\n') → Spec.Text.apart (shape l) = true →
    Spec.Text.numbers none (shape l) = true → loose l = true → Held C S L cfg H ρ p l ρ' →
    C.pos p = ⟨a.line, a.column + g⟩ → ∃ F r e, Pieces C S L cfg H ρ p a g l F r e ρ' := by
  induction k with
  | zero =>
    intro l hk ρ p a g _ _ _ _ hhe ha
    cases l with
    | cons x l => simp at hk
    | nil => cases hhe; exact ⟨[], [], a, pieces_nil p a g (by rw [ha])⟩
  | succ k ih =>
    intro l hk ρ p a g hch hap hnu hlo hhe ha
    cases l with
    | nil => cases hhe; exact ⟨[], [], a, pieces_nil p a g (by rw [ha])⟩
    | cons x l =>
    have hk' : l.length ≤ k := by simpa using hk
    cases x with
    | hole h vs is =>
      obtain ⟨ρ₁, hst, hre⟩ := hhe
      obtain ⟨n, cs, n1, n2, n3, n4, n5⟩ := hst.node
      have hnu' : Spec.Text.numbers none (shape l) = true := by
        have : Spec.Text.numbers none ('$' :: shape l) = true := hnu
        simpa [Spec.Text.numbers, show nameChar '$' = false by decide] using this
      obtain ⟨F, r, e, hP⟩ := ih l hk' ρ₁ (go p h) (C.pos (go p h)) 0 (fun c hc => hch c (by simp [hc]))
        (apart_cons hap).1 hnu' (loose_tail hlo) hre rfl
      obtain ⟨ts, ⟨rs, t1, t2⟩, t3⟩ := n5 (jointOf (sourceLine l))
      have hsrc : sourceLine ([.hole h vs is] : Line ι) = h := by simp [sourceLine, Glyph.source]
      refine ⟨_, _, e, pieces_step (x := [.hole h vs is]) (f := .chunk rs ts n) (G := (cs, vs)) (by simp) (by simp [Doc.isSpace]) ha
        ⟨t1, t3, n2⟩ (by rw [hsrc]; exact n1) n3 (by simp [n4, Glyph.imports]) (by simp [Piece.bracket, shape, Glyph.shape]; decide)
        (fun t ht => ?_) (fun y hy => by cases List.mem_singleton.1 hy; rfl) (fun z => rfl) (fun hc => by simp at hc) (by rw [hsrc]; exact hP)⟩
      rw [hsrc]
      refine t2 _ ⟨fun b c hb hc => ?_, joint_append ht _⟩
      cases l with
      | nil => exact ht.loose h b c hb hc
      | cons y l =>
        refine loose_next hlo (.inl ⟨_, _, _, rfl⟩) b c hb ?_
        cases y with
        | char d => exact hc
        | hole s vs is =>
          obtain ⟨_, hst', -⟩ := hre
          obtain ⟨d, r, rfl, hd⟩ := hst'.head
          exact hc
    | char c =>
      obtain ⟨hpc, hcn⟩ := hch c (by simp)
      have hhc : holeChar c = true := by simp [holeChar, hpc]
      have hpos := pos_step C hhc (.inr hcn) p
      by_cases hn : nameChar c = true
      · -- a word
        obtain ⟨w, l', hl, hw, hl'⟩ : ∃ (w : Str) (l' : Line ι), l = w.map Glyph.char ++ l' ∧ w.all nameChar = true ∧
            ∀ d m, l' = .char d :: m → nameChar d = false := by
          clear hk hk' hch hap hnu hlo hhe
          induction l with
          | nil => exact ⟨[], [], rfl, rfl, by simp⟩
          | cons x l ihl =>
            cases x with
            | hole s vs is => exact ⟨[], _, rfl, rfl, by simp⟩
            | char d =>
              by_cases hd : nameChar d = true
              · obtain ⟨w, l', rfl, h2, h3⟩ := ihl
                exact ⟨d :: w, l', rfl, by rw [List.all_cons, hd, h2]; rfl, h3⟩
              · exact ⟨[], _, rfl, rfl, by rintro d' m h; cases h; simpa using hd⟩
        subst hl
        have hsh : shape (.char c :: (w.map Glyph.char ++ l')) = c :: (w ++ shape l') := by
          simp [shape, Glyph.shape, Function.comp_def]
        have hw' : (c :: w).all nameChar = true := by rw [List.all_cons, hn, hw]; rfl
        rw [hsh] at hap hnu
        simp only [Spec.Text.numbers, hn, if_true] at hnu
        obtain ⟨m1, m2⟩ := numbers_word hw hnu
        have hnu' : Spec.Text.numbers none (shape l') = true := by
          refine numbers_none m2 (fun d hd => ?_)
          cases l' with
          | nil => cases hd
          | cons y l' =>
            cases y with
            | char d' => cases hd; exact hl' _ _ rfl
            | hole s vs is => cases hd; exact (by decide : nameChar '$' = false)
        have hhe' : Held C S L cfg H ρ (go p (c :: w)) l' ρ' := held_word (w := c :: w) hhe
        have hlo' : loose l' = true := loose_word (w := c :: w) hlo
        obtain ⟨F, r, e, hP⟩ := ih l' (by simp at hk'; omega) ρ (go p (c :: w)) (C.pos (go p (c :: w))) 0
          (fun c hc => hch c (by simp [hc])) (apart_drop (a := c :: w) hap) hnu' hlo' hhe' rfl
        obtain ⟨t, t1, t2, t3, t4⟩ := word_ok C (go p (c :: w)) (start := p) (text := (c :: w).reverse)
          ⟨by rw [List.all_reverse]; exact hw', c, w, by simp, fun hd => m1 (by simp [hd])⟩
        have hsrc : sourceLine ((c :: w).map Glyph.char : Line ι) = c :: w := source_word _
        have htw : t.cur = ⟨C.pos p, C.pos (go p (c :: w))⟩ ∧ wordOf t = some (c :: w) := by
          rw [wordTok] at t2
          cases t with
          | ident cur name => cases t2; exact ⟨rfl, by simp [wordOf]⟩
          | punct cur d j =>
            simp only [plainLeaf, Bool.not_eq_true'] at t4
            rw [spelledOne, tokens] at t2
            simp only [List.reverse_reverse, List.map_cons, List.map_nil, List.cons.injEq, Node.tree.injEq, and_true] at t2
            obtain ⟨-, h1, -⟩ := t2
            rw [h1, hn] at t4
            cases t4
          | str => cases t2
          | char => simp [plainLeaf] at t4
          | lit cur text => cases t2; exact ⟨rfl, by simp [wordOf]⟩
          | group => simp [plainLeaf] at t4
        refine ⟨_, _, e, pieces_step (x := (c :: w).map Glyph.char) (f := .chunk [.leaf t] [t] (.tree t.cur (c :: w)))
          (G := ([.append (.literal (.static (c :: w)))], [c :: w])) (by simp) ?_ ha ⟨grows_leaf t, ?_, rfl⟩ ?_
          (makes_word L cfg (by simp)) ?_ ?_ ?_
          (fun y hy => by obtain ⟨d, -, rfl⟩ := List.mem_map.1 hy; rfl) (filled_word (c :: w)) (fun _ => ⟨c :: w, by simp, rfl⟩) (by rw [hsrc]; exact hP)⟩
        · intro y hy
          obtain ⟨d, hd, rfl⟩ := List.mem_map.1 hy
          have := (nameChar_facts (List.all_eq_true.1 hw' d hd)).1
          simpa [Doc.isSpace] using this
        · intro us ms hm
          exact .word htw.2 hm
        · rw [hsrc, htw.1]
          exact acts_word H ρ _ (by simp)
        · rw [imports_word]; rfl
        · rw [shape_word]
          refine (List.filter_eq_nil_iff.2 (fun d hd => ?_)).symm
          obtain ⟨-, -, -, -, -, h6, h7, -⟩ := nameChar_facts (List.all_eq_true.1 hw' d hd)
          simp [isBracket, h6, h7]
        · intro s hs
          rw [hsrc]
          refine runs_word hn hw (by simpa using t1) (fun d hd => ?_)
          rcases source_head hhe' hd with ⟨-, h⟩ | ⟨m, rfl⟩ | ⟨s', vs, is, m, rfl, hq⟩
          · exact hs.breaks d h
          · have hd' := hl' _ _ rfl
            obtain ⟨q1, -⟩ := hch d (by simp)
            refine ⟨hd', ?_, ?_, ?_⟩
            · rcases List.eq_nil_or_concat (c :: w) with h | ⟨u, z, h⟩
              · cases h
              · rw [List.concat_eq_append] at h
                have hz : nameChar z = true := List.all_eq_true.1 hw' z (by rw [h]; simp)
                have hap' : Spec.Text.apart (u ++ z :: d :: shape m) = true := by
                  have := hap
                  rw [← List.cons_append, h] at this
                  simpa [shape, Glyph.shape] using this
                exact apart_last (a := u) (b := shape m) (c := z) (d := d) hap' hz
            · rintro rfl; revert q1; decide
            · rintro rfl; revert q1; decide
          · have hlast : ∃ u z, c :: w = u ++ [z] ∧ nameChar z = true := by
              rcases List.eq_nil_or_concat (c :: w) with h | ⟨u, z, h⟩
              · cases h
              · rw [List.concat_eq_append] at h
                exact ⟨u, z, h, List.all_eq_true.1 hw' z (by rw [h]; simp)⟩
            obtain ⟨u, z, hz, hzn⟩ := hlast
            have hlo2 : loose (.char z :: .hole (d :: s') vs is :: m) = true := by
              have h1 : ((c :: w).map Glyph.char ++ .hole (d :: s') vs is :: m : Line ι) =
                  u.map Glyph.char ++ (.char z :: .hole (d :: s') vs is :: m) := by rw [hz]; simp
              have h2 := hlo
              rw [← List.cons_append, ← List.map_cons, h1] at h2
              exact loose_word h2
            have := loose_next hlo2 (.inr ⟨_, _, _, rfl⟩) z d rfl rfl
            rcases hq with rfl | rfl | rfl
            · decide
            · simp [sticks, hzn] at this
            · simp [sticks, hzn] at this
      · have hn' : nameChar c = false := by simpa using hn
        have hap' := apart_cons hap
        have hnu' : Spec.Text.numbers none (shape l) = true := by
          have : Spec.Text.numbers none (c :: shape l) = true := hnu
          simpa [Spec.Text.numbers, hn'] using this
        have hch' : ∀ d, Glyph.char d ∈ l → plainChar d = true ∧ d ≠ '\n' := fun d hd => hch d (by simp [hd])
        rcases plain_cases hhc hn' with hb | ⟨h1, h2, h3, h4, h6, h7, hk⟩
        · rcases hb with rfl | rfl
          · obtain ⟨F, r, e, hP⟩ := ih l hk' ρ (p.next ' ') a (g + 1) hch' hap'.1 hnu' (loose_tail hlo) hhe
              (by rw [hpos, ha]; rfl)
            exact ⟨F, r, e, pieces_space hP⟩
          · exact absurd rfl hcn
        · obtain ⟨F, r, e, hP⟩ := ih l hk' ρ (p.next c) (C.pos (p.next c)) 0 hch' hap'.1 hnu' (loose_tail hlo) hhe rfl
          have hsp : ∀ y ∈ ([.char c] : Line ι), Doc.isSpace y = false := by
            intro y hy
            cases List.mem_singleton.1 hy
            simp only [blankChar, Bool.or_eq_false_iff] at h6
            exact h6.1
          have hcm : ∀ t, Halt t → startsComment (c :: (sourceLine l ++ t)) = false := by
            intro t ht
            generalize hz : sourceLine l ++ t = z
            unfold startsComment
            split
            · rename_i e
              cases e
              rcases source_head (l := l) hhe (c := '/') (t := t) (by rw [hz]; rfl) with
                ⟨-, h⟩ | ⟨m, rfl⟩ | ⟨s', vs, is, m, rfl, hq⟩
              · exact absurd (ht _ h).2.1 (by decide)
              · exact absurd rfl (hap'.2.1 rfl).1
              · revert hq; decide
            · rename_i e
              cases e
              rcases source_head (l := l) hhe (c := '*') (t := t) (by rw [hz]; rfl) with
                ⟨-, h⟩ | ⟨m, rfl⟩ | ⟨s', vs, is, m, rfl, hq⟩
              · exact absurd (ht _ h).2.1 (by decide)
              · exact absurd rfl (hap'.2.1 rfl).2
              · revert hq; decide
            · rfl
          have step : ∀ f : Piece, f.Valid C S → Acts H ρ (f.node C) ⟨C.pos p, C.pos (p.next c)⟩ [.append (.literal (.static [c]))] ρ →
              f.bracket = [c].filter isBracket →
              (∀ t, Halt t → Runs C p [c] (sourceLine l ++ t) f.raws) →
              ∃ F r e, Pieces C S L cfg H ρ p a g (.char c :: l) F r e ρ' := by
            intro f f1 f2 f3 f4
            exact ⟨_, _, e, pieces_step (x := [.char c]) (f := f) (G := ([.append (.literal (.static [c]))], [[c]]))
              (by simp) hsp ha f1 f2 (makes_word L cfg (by simp)) rfl f3 f4
              (fun y hy => by cases List.mem_singleton.1 hy; rfl) (fun z => rfl)
              (fun _ => ⟨[c], by simp, rfl⟩) hP⟩
          have hpl : ∀ t, lexFresh C p c t = if startsComment (c :: t) then (if t.head? = some '/' then some ([], .comment 1) else none)
              else match opens c, closes c with
              | some d, _ => some ([.opening p d], .none)
              | none, some d => some ([.closing (p.next c) d], .none)
              | none, none =>
                if punctChar c then some ([.leaf (.punct ⟨C.pos p, C.pos (p.next c)⟩ c (jointOf t))], .none) else none := by
            intro t
            rw [lexFresh, if_neg (by simp [h1]), if_neg (by simp [wordChar_eq, hn']), if_neg h2, if_neg h3]
            rfl
          have hpos' : C.pos (p.next c) = ⟨(C.pos p).line, (C.pos p).column + 1⟩ := hpos
          rcases hk with ⟨d, k1, k2, k3⟩ | ⟨d, k1, k2, k3, k4, k5⟩ | ⟨k1, k2, k3, k4, k5⟩
          · refine step (.opening p d) trivial ?_ ?_ (fun t ht => ?_)
            · rw [hpos', k3]
              exact acts_word H ρ _ (by simp)
            · rw [List.filter_cons_of_pos (by simp [isBracket, k2]), k3]; rfl
            · apply runs_char
              rw [hpl, hcm t ht, k1]
              rfl
          · refine step (.closing (p.next c) d) trivial ?_ ?_ (fun t ht => ?_)
            · have : (⟨⟨(C.pos (p.next c)).line, (C.pos (p.next c)).column - 1⟩, C.pos (p.next c)⟩ : Cur) =
                  ⟨C.pos p, C.pos (p.next c)⟩ := by rw [hpos']; rfl
              show Acts H ρ (.tree _ [closer d]) _ _ _
              rw [this, ← k5]
              exact acts_word H ρ _ (by simp)
            · rw [List.filter_cons_of_pos (by simp [isBracket, k4]), k5]; rfl
            · apply runs_char
              rw [hpl, hcm t ht, k1, k2]
              rfl
          · have hd : c ≠ '$' := by rintro rfl; revert hpc; decide
            refine step (.chunk [.leaf (.punct ⟨C.pos p, C.pos (p.next c)⟩ c (jointOf (sourceLine l)))]
              [.punct ⟨C.pos p, C.pos (p.next c)⟩ c (jointOf (sourceLine l))] (.tree ⟨C.pos p, C.pos (p.next c)⟩ [c]))
              ⟨grows_leaf _, ?_, rfl⟩ (acts_word H ρ _ (by simp)) ?_ (fun t ht => ?_)
            · intro us ms hm
              exact .word (by simp [wordOf, hd]) hm
            · rw [List.filter_cons_of_neg (by simp [isBracket, k3, k4])]; rfl
            · apply runs_char
              rw [hpl, hcm t ht, k1, k2]
              simp [k5, joint_append ht]
              rfl

end

end Genco.Proofs.DocFile
