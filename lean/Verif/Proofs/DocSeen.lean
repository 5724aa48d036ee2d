import Verif.Proofs.DocText

/-!
# Templates in source text on a compiler without line numbers
-/

set_option autoImplicit false

namespace Genco.Proofs.DocFile

open Genco Macro Spec Spec.Text Spec.MacroFile Spec.Doc Genco.Proofs Genco.Proofs.TextFile

variable {ι Env : Type}

/-! ## Tokens whose places are offsets -/

/-- A place without line and column. -/
def home (p : Place) : Place := ⟨0, 0, p.offset⟩

def homeRaw : Raw → Raw
  | .leaf t => .leaf t
  | .opening p d => .opening (home p) d
  | .closing p d => .closing (home p) d

def homePend : Pending → Pending
  | .none => .none
  | .word p t => .word (home p) t
  | .quote p ch esc v t => .quote (home p) ch esc v t
  | .comment n => .comment n

def homeStep (x : List Raw × Pending) : List Raw × Pending := (x.1.map homeRaw, homePend x.2)

theorem home_offset {p q : Place} (h : home p = home q) : p.offset = q.offset := by
  have : (home p).offset = (home q).offset := by rw [h]
  exact this

theorem home_pos {p q : Place} (h : home p = home q) : Compiler.stable.pos p = Compiler.stable.pos q := by
  have : p.offset = q.offset := home_offset h
  simp [Compiler.pos, this]

theorem home_next {p q : Place} (h : home p = home q) (c : Char) : home (p.next c) = home (q.next c) := by
  have : p.offset = q.offset := home_offset h
  unfold Place.next
  split <;> simp [home, this]

theorem home_go (s : Str) : ∀ {p q : Place}, home p = home q → home (go p s) = home (go q s) := by
  induction s with
  | nil => intro p q h; exact h
  | cons c s ih => intro p q h; exact ih (home_next h c)

theorem home_word {p q p' q' : Place} (h : home p = home p') (h' : home q = home q') (t : Str) :
    wordToken .stable p q t = wordToken .stable p' q' t := by
  unfold wordToken
  rw [home_pos h, home_pos h']

theorem home_fresh {p q : Place} (h : home p = home q) (c : Char) (r : Str) :
    (lexFresh .stable p c r).map homeStep = (lexFresh .stable q c r).map homeStep := by
  have h1 := home_next h c
  unfold lexFresh
  rw [home_pos h, home_pos h1]
  split
  · rfl
  · split
    · simp [homeStep, homePend, h]
    · split
      · simp [homeStep, homePend, h]
      · split
        · simp [homeStep, homePend, h]
        · split
          · split <;> rfl
          · cases opens c with
            | some d => simp [homeStep, homePend, homeRaw, h]
            | none =>
              cases closes c with
              | some d => simp [homeStep, homePend, homeRaw, h1]
              | none => simp only

theorem home_step {p q : Place} (hp : home p = home q) (c : Char) (r : Str) (a b : Pending) (h : homePend a = homePend b) :
    (lexStep .stable p c r a).map homeStep = (lexStep .stable q c r b).map homeStep := by
  have hn := home_next hp c
  cases a with
  | none =>
    cases b with
    | none => exact home_fresh hp c r
    | _ => cases h
  | word p1 t1 =>
    cases b with
    | word p2 t2 =>
      simp only [homePend, Pending.word.injEq] at h
      obtain ⟨h, rfl⟩ := h
      rw [lexStep, lexStep]
      split
      · simp [homeStep, homePend, h]
      · split
        · rfl
        · rw [home_word h hp]
          have h2 := home_fresh hp c r
          cases hw : wordToken .stable p2 q t1 with
          | none => rfl
          | some w =>
            cases ho : lexFresh .stable p c r <;> cases ho' : lexFresh .stable q c r <;> rw [ho, ho'] at h2 <;> try cases h2
            simp only [Option.map_some, Option.some.injEq, homeStep, Prod.mk.injEq] at h2
            simp [homeStep, h2]
    | _ => cases h
  | quote p1 ch1 e1 v1 t1 =>
    cases b with
    | quote p2 ch2 e2 v2 t2 =>
      simp only [homePend, Pending.quote.injEq] at h
      obtain ⟨h, rfl, rfl, rfl, rfl⟩ := h
      cases e1 with
      | true =>
        simp only [lexStep]
        cases unescape c
        · rfl
        · simp [homeStep, homePend, h]
      | false =>
        cases ch1 with
        | false =>
          simp only [lexStep]
          rw [home_pos h, home_pos hn]
          split
          · simp [homeStep, homePend, h]
          · split
            · split <;> rfl
            · split
              · rfl
              · simp [homeStep, homePend, h]
        | true =>
          simp only [lexStep]
          rw [home_pos h, home_pos hn]
          split
          · simp [homeStep, homePend, h]
          · split
            · rfl
            · split
              · rfl
              · simp [homeStep, homePend, h]
    | _ => cases h
  | comment n =>
    cases b with
    | comment m =>
      cases h
      rfl
    | _ => cases h

theorem home_from (s : Str) : ∀ {p q : Place} (_ : home p = home q) (a b : Pending), homePend a = homePend b →
    (lexFrom .stable p a s).map (List.map homeRaw) = (lexFrom .stable q b s).map (List.map homeRaw) := by
  induction s with
  | nil =>
    intro p q hp a b h
    cases a <;> cases b <;> try cases h <;> try rfl
    · rename_i p1 t1 p2 t2
      simp only [homePend, Pending.word.injEq] at h
      obtain ⟨h, rfl⟩ := h
      rw [lexFrom, lexFrom]
      rw [home_word h hp]
    · rfl
  | cons c s ih =>
    intro p q hp a b h
    rw [lexFrom, lexFrom]
    have h1 := home_step hp c s a b h
    cases ha : lexStep .stable p c s a <;> cases hb : lexStep .stable q c s b <;> rw [ha, hb] at h1 <;> try cases h1
    · rfl
    · rename_i x y
      simp only [Option.map_some, Option.some.injEq, homeStep, Prod.mk.injEq] at h1
      have h2 := ih (home_next hp c) x.2 y.2 h1.2
      simp only [bind, Option.bind]
      cases hx : lexFrom .stable (p.next c) x.2 s <;> cases hy : lexFrom .stable (q.next c) y.2 s <;> rw [hx, hy] at h2 <;> try cases h2
      simp only [Option.map_some, Option.some.injEq] at h2
      simp [h1.1, h2]

def homeFrame (x : Place × Delimiter × List TT) : Place × Delimiter × List TT := (home x.1, x.2)

theorem home_stack (r : List Raw) : ∀ (st st' : List (Place × Delimiter × List TT)) (acc : List TT),
    st.map homeFrame = st'.map homeFrame → trees .stable st acc r = trees .stable st' acc r := by
  induction r with
  | nil =>
    intro st st' acc hs
    cases st with
    | nil =>
      cases st' with
      | nil => rfl
      | cons => cases hs
    | cons =>
      cases st' with
      | nil => cases hs
      | cons => rfl
  | cons x r ih =>
    intro st st' acc hs
    cases x with
    | leaf t => exact ih _ _ _ hs
    | opening p d => exact ih _ _ _ (by simp [homeFrame, hs])
    | closing p d =>
      cases st with
      | nil =>
        cases st' with
        | nil => rfl
        | cons => cases hs
      | cons f st =>
        cases st' with
        | nil => cases hs
        | cons f' st' =>
          obtain ⟨p1, d1, o1⟩ := f
          obtain ⟨p2, d2, o2⟩ := f'
          rw [List.map_cons, List.map_cons, List.cons.injEq] at hs
          obtain ⟨hf, hs⟩ := hs
          simp only [homeFrame, Prod.mk.injEq] at hf
          obtain ⟨hf, rfl, rfl⟩ := hf
          rw [trees, trees]
          split
          · rw [home_pos hf]
            exact ih _ _ _ hs
          · rfl

theorem home_trees (rs : List Raw) : ∀ (rs' : List Raw) (st st' : List (Place × Delimiter × List TT)) (acc : List TT) (r : List Raw),
    rs.map homeRaw = rs'.map homeRaw → st.map homeFrame = st'.map homeFrame →
    trees .stable st acc (rs ++ r) = trees .stable st' acc (rs' ++ r) := by
  induction rs with
  | nil =>
    intro rs' st st' acc r h hs
    cases rs' with
    | cons => cases h
    | nil => exact home_stack r _ _ _ hs
  | cons x rs ih =>
    intro rs' st st' acc r h hs
    cases rs' with
    | nil => cases h
    | cons y rs' =>
      rw [List.map_cons, List.map_cons, List.cons.injEq] at h
      obtain ⟨h1, h2⟩ := h
      cases x with
      | leaf t =>
        cases y with
        | leaf t' =>
          cases h1
          exact ih _ _ _ _ _ h2 hs
        | _ => cases h1
      | opening p d =>
        cases y with
        | opening p' d' =>
          simp only [homeRaw, Raw.opening.injEq] at h1
          obtain ⟨h1, rfl⟩ := h1
          exact ih _ _ _ _ _ h2 (by simp [homeFrame, h1, hs])
        | _ => cases h1
      | closing p d =>
        cases y with
        | closing p' d' =>
          simp only [homeRaw, Raw.closing.injEq] at h1
          obtain ⟨h1, rfl⟩ := h1
          cases st with
          | nil =>
            cases st' with
            | nil => rfl
            | cons => cases hs
          | cons f st =>
            cases st' with
            | nil => cases hs
            | cons f' st' =>
              obtain ⟨p1, d1, o1⟩ := f
              obtain ⟨p2, d2, o2⟩ := f'
              rw [List.map_cons, List.map_cons, List.cons.injEq] at hs
              obtain ⟨hf, hs⟩ := hs
              simp only [homeFrame, Prod.mk.injEq] at hf
              obtain ⟨hf, rfl, rfl⟩ := hf
              rw [List.cons_append, List.cons_append, trees, trees]
              split
              · rw [home_pos hf, home_pos h1]
                exact ih _ _ _ _ _ h2 hs
              · rfl
        | _ => cases h1

theorem home_grows {rs rs' : List Raw} {ts : List TT} (h : rs.map homeRaw = rs'.map homeRaw) (hg : Grows .stable rs ts) :
    Grows .stable rs' ts := by
  intro st acc r
  rw [← hg st acc r]
  exact home_trees rs' rs st st acc r h.symm rfl

theorem home_runs {p q : Place} (h : home p = home q) {s : Str} {rs rs' : List Raw} (h1 : Runs .stable p s [] rs)
    (h2 : Runs .stable q s [] rs') : rs.map homeRaw = rs'.map homeRaw := by
  have e := home_from (s ++ []) h .none .none rfl
  rw [h1, h2] at e
  simpa [lexFrom] using e

/-! ## Lines on one line -/

section

variable {S : Syn} {L : Lang ι} {cfg : Config} {H : Host ι (List TT) Env}

theorem flat_cons (l : Line ι) (ls : List (Line ι)) : ∃ s, oneLine (l :: ls) = l ++ s ∧
    ((ls = [] ∧ s = []) ∨ (ls ≠ [] ∧ s = .char ' ' :: oneLine ls)) := by
  cases ls with
  | nil => exact ⟨[], by simp [Doc.oneLine], .inl ⟨rfl, rfl⟩⟩
  | cons m ls => exact ⟨_, rfl, .inr ⟨by simp, rfl⟩⟩

theorem held_append {C : Compiler} (a b : Line ι) : ∀ {ρ ρ' : Env} {p : Place}, Held C S L cfg H ρ p (a ++ b) ρ' →
    ∃ ρ₁, Held C S L cfg H ρ p a ρ₁ ∧ Held C S L cfg H ρ₁ (go p (sourceLine a)) b ρ' := by
  induction a with
  | nil => intro ρ ρ' p h; exact ⟨ρ, rfl, h⟩
  | cons x a ih =>
    intro ρ ρ' p h
    cases x with
    | char c => exact ih (p := p.next c) h
    | hole s vs is =>
      obtain ⟨ρ₁, h1, h2⟩ := h
      obtain ⟨ρ₂, h3, h4⟩ := ih h2
      refine ⟨ρ₂, ⟨ρ₁, h1, h3⟩, ?_⟩
      rw [show sourceLine (.hole s vs is :: a) = s ++ sourceLine a from rfl, go_append]
      exact h4

theorem apart_front {a b : Str} (h : Spec.Text.apart (a ++ b) = true) : Spec.Text.apart a = true := by
  induction a with
  | nil => rfl
  | cons x a ih =>
    cases a with
    | nil => rfl
    | cons y a =>
      rw [List.cons_append, List.cons_append, Spec.Text.apart, Bool.and_eq_true] at h
      rw [Spec.Text.apart, Bool.and_eq_true]
      exact ⟨h.1, ih h.2⟩

theorem numbers_space (a b : Str) : ∀ o, Spec.Text.numbers o (a ++ ' ' :: b) = (Spec.Text.numbers o a && Spec.Text.numbers none b) := by
  induction a with
  | nil =>
    intro o
    have : nameChar ' ' = false := by decide
    cases o <;> simp [Spec.Text.numbers, this]
  | cons c a ih =>
    intro o
    cases o with
    | none => rw [List.cons_append, Spec.Text.numbers, Spec.Text.numbers]; split <;> rw [ih]
    | some d =>
      rw [List.cons_append, Spec.Text.numbers, Spec.Text.numbers]
      split
      · rw [ih, Bool.and_assoc]
      · rw [ih]

theorem loose_front {a b : Line ι} (h : loose (a ++ b) = true) : loose a = true := by
  induction a with
  | nil => rfl
  | cons x a ih =>
    have ih := ih (loose_tail h)
    cases a with
    | nil => cases x <;> rfl
    | cons y a =>
      have h' : loose (x :: y :: (a ++ b)) = true := h
      cases x with
      | char c =>
        cases y with
        | char d => exact ih
        | hole =>
          rw [loose] at h' ⊢
          · rw [Bool.and_eq_true] at h' ⊢; exact ⟨h'.1, ih⟩
          · simp
          · simp
      | hole =>
        rw [loose] at h' ⊢
        · rw [Bool.and_eq_true] at h' ⊢; exact ⟨h'.1, ih⟩
        · simp
        · simp

theorem loose_back (a : Line ι) {b : Line ι} (h : loose (a ++ b) = true) : loose b = true := by
  induction a with
  | nil => exact h
  | cons x a ih => exact ih (loose_tail h)

theorem sound_split {l m : Line ι} (h : Sound (l ++ .char ' ' :: m)) : Sound l ∧ Sound m := by
  have e : shape (l ++ .char ' ' :: m) = shape l ++ ' ' :: shape m := by simp [shape, Glyph.shape]
  have h2 := h.apart
  have h3 := h.numbers
  rw [e] at h2 h3
  rw [numbers_space, Bool.and_eq_true] at h3
  exact ⟨⟨fun c hc => h.chars c (by simp [hc]), apart_front h2, h3.1, loose_front h.loose⟩,
    ⟨fun c hc => h.chars c (by simp [hc]), (apart_cons (apart_drop h2)).1, h3.2, loose_tail (loose_back l h.loose)⟩⟩

/-- Lines are read as if they were on one line. -/
theorem flat_runs (ls : List (Line ι)) : ∀ (ρ ρ' σ σ' : Env) (p q : Place), home p = home q → Sound (oneLine ls) →
    Held .stable S L cfg H ρ p (oneLine ls) ρ' → HeldAll .stable S L cfg H σ q ls σ' →
    ∃ rs rs', rs.map homeRaw = rs'.map homeRaw ∧ (∀ t, Halt t → Runs .stable p (sourceLine (oneLine ls)) t rs) ∧
      (∀ t, Halt t → Runs .stable q (sourceOf ls) t rs') := by
  induction ls with
  | nil => intro ρ ρ' σ σ' p q _ _ _ _; exact ⟨[], [], rfl, fun t _ => runs_nil p t, fun t _ => runs_nil q t⟩
  | cons l ls ih =>
    intro ρ ρ' σ σ' p q hpq hs hh ha
    obtain ⟨s, e1, e2⟩ := flat_cons l ls
    rw [e1] at hs hh ⊢
    obtain ⟨ρ₁, h1, h2⟩ := held_append l s hh
    obtain ⟨σ₁, k1, k2⟩ := ha
    have hl : Sound l := by
      rcases e2 with ⟨-, rfl⟩ | ⟨-, rfl⟩
      · rwa [List.append_nil] at hs
      · exact (sound_split hs).1
    obtain ⟨F, r, e, hP⟩ := line_pieces (C := .stable) l.length l (Nat.le_refl _) ρ p ⟨1, 0⟩ p.offset hl.chars hl.apart
      hl.numbers hl.loose h1 (by simp [Compiler.pos])
    obtain ⟨F', r', e', hP'⟩ := line_pieces (C := .stable) l.length l (Nat.le_refl _) σ q ⟨1, 0⟩ q.offset hl.chars hl.apart
      hl.numbers hl.loose k1 (by simp [Compiler.pos])
    have hF := home_runs hpq (hP.runs [] halt_nil) (hP'.runs [] halt_nil)
    obtain ⟨u, f1, f2⟩ := textOf_cons (sourceLine l) (ls.map sourceLine)
    unfold sourceOf
    rw [List.map_cons, f1, source_append]
    rcases e2 with ⟨rfl, rfl⟩ | ⟨hne, rfl⟩
    · rcases f2 with ⟨-, rfl⟩ | ⟨h, -⟩
      · refine ⟨_, _, hF, fun t ht => ?_, fun t ht => ?_⟩
        · rw [show sourceLine ([] : Line ι) = [] from rfl, List.append_nil]; exact hP.runs t ht
        · rw [List.append_nil]; exact hP'.runs t ht
      · exact absurd rfl h
    · rcases f2 with ⟨h, -⟩ | ⟨-, rfl⟩
      · exact absurd (by simpa using h) hne
      · have hpq' : home ((go p (sourceLine l)).next ' ') = home (go q (sourceLine l ++ ['\n'])) := by
          rw [go_append]
          have h0 := home_offset (home_go (sourceLine l) hpq)
          have h1 : ((go p (sourceLine l)).next ' ').offset = (go p (sourceLine l)).offset + 1 := by
            simp only [Place.next, if_neg (show ¬ ' ' = '\n' by decide)]
            rfl
          have h2 : (go (go q (sourceLine l)) ['\n']).offset = (go q (sourceLine l)).offset + 1 := rfl
          show (⟨0, 0, _⟩ : Place) = ⟨0, 0, _⟩
          rw [h1, h2, h0]
        obtain ⟨rs, rs', g1, g2, g3⟩ := ih ρ₁ ρ' σ₁ σ' _ _ hpq' (sound_split hs).2 h2 k2
        refine ⟨F.flatMap Piece.raws ++ rs, F'.flatMap Piece.raws ++ rs', by rw [List.map_append, List.map_append, hF, g1], fun t ht => ?_,
          fun t ht => ?_⟩
        · refine (hP.runs _ (halt_space _)).append ?_
          exact Runs.append (a := [' ']) (x := []) (runs_blank (by decide) _) (g2 t ht)
        · refine (hP'.runs _ (halt_break _)).append ?_
          rw [go_append] at g3
          exact Runs.append (a := ['\n']) (x := []) (runs_blank (by decide) _) (g3 t ht)

theorem flat_reads {ls : List (Line ι)} {ρ ρ' σ σ' : Env} {p : Place} (hs : Sound (oneLine ls))
    (hh : Held .stable S L cfg H ρ p (oneLine ls) ρ') (ha : HeldAll .stable S L cfg H σ p ls σ') {ts : List TT}
    (h : ReadsAs .stable p (sourceOf [oneLine ls]) Halt ts) : ReadsAs .stable p (sourceOf ls) Halt ts := by
  obtain ⟨rs, rs', g1, g2, g3⟩ := flat_runs ls ρ ρ' σ σ' p p rfl hs hh ha
  obtain ⟨us, h1, h2⟩ := h
  have e : sourceOf [oneLine ls] = sourceLine (oneLine ls) := by simp [sourceOf, Macro.textOf]
  rw [e] at h2
  have := home_runs rfl (h2 [] halt_nil) (g2 [] halt_nil)
  exact ⟨rs', home_grows (this.trans g1) h1, g3⟩

/-! ## One line starts anywhere -/

theorem tidy_pad (k : Nat) (l : Line ι) : Doc.tidy (spaces k ++ l) = Doc.tidy l := by
  unfold Doc.tidy
  congr 1
  induction k with
  | zero => rfl
  | succ k ih =>
    rw [spaces, List.replicate_succ, List.cons_append, List.dropWhile_cons_of_pos (by rfl)]
    exact ih

theorem moved_zero (cfg : Config) (s : Str) : movedIn cfg 0 s = s := by
  unfold movedIn
  split
  · simp [*]
  · unfold marginText; cases cfg.indentation <;> simp

/-- What one line is rendered as. -/
theorem one_lines (cfg : Config) (k : Nat) (l : Line ι) :
    Doc.linesOf cfg k [l] = if hollow l then [] else Doc.filled (Doc.tidy (strip l)) := by
  have hb : blank (shape (spaces k ++ l)) = blank (shape l) := by rw [shape_pad, blank_pad]
  rw [Doc.linesOf, show Doc.pad k [l] = [spaces k ++ l] from rfl, Doc.left, hb, hollow_pad]
  by_cases h : blank (shape l) = true
  · rw [if_pos h, if_pos (hollow_blank h)]
    rfl
  · rw [if_neg h]
    cases hh : hollow l with
    | true => rfl
    | false =>
      rw [if_neg (by simp), if_neg (by simp), if_neg (by simp), List.nil_append, Doc.left, Doc.rendered]
      have : blank (shape (strip (spaces k ++ l))) = false := by
        have := hollow_pad k l
        rw [hh] at this
        exact this
      rw [if_neg (by simp [this]), if_neg (by simp), List.nil_append, Doc.rendered, List.append_nil, strip_pad, tidy_pad]
      rw [show ∀ c, depth c [] = 0 from fun _ => rfl, show (movedIn cfg 0) = id from funext (moved_zero cfg), List.map_id]

theorem one_level (k : Nat) (l : Line ι) : lastDepth [] ((Doc.pad k [l]).map shape) = 0 := by
  show lastDepth [] [shape (spaces k ++ l)] = 0
  rw [lastDepth]
  split <;> rfl

theorem one_fit {k : Nat} {l : Line ι} (h : Fit k [l]) (k' : Nat) : Fit k' [l] := by
  refine ⟨h.sound, h.nested, ?_, ?_, h.ink⟩
  · show Text.offside [] [shape (spaces k' ++ l)] = true
    rw [offside_cons]
    split <;> rfl
  · have hn := h.neat
    have e : ∀ k, Doc.neat none (Doc.pad k [l]) = (blank (shape l) || (!hollow l && !startsVoid l)) := by
      intro k
      show Doc.neat none [spaces k ++ l] = _
      have hb : blank (shape (spaces k ++ l)) = blank (shape l) := by rw [shape_pad, blank_pad]
      rw [Doc.neat, hb, hollow_pad, starts_pad]
      by_cases h1 : blank (shape l) = true
      · simp [h1, Doc.neat]
      · cases hollow l <;> simp [h1, Doc.neat, below]
    rw [e] at hn ⊢
    exact hn

/-! ## What is the same on one line -/

theorem flat_flatten (ls : List (Line ι)) : (oneLine ls).filter (fun x => !Doc.isSpace x) = things ls := by
  induction ls with
  | nil => rfl
  | cons l ls ih =>
    obtain ⟨s, e1, e2⟩ := flat_cons l ls
    rw [e1, things, List.flatten_cons, List.filter_append, List.filter_append]
    rcases e2 with ⟨rfl, rfl⟩ | ⟨-, rfl⟩
    · rfl
    · rw [List.filter_cons_of_neg (by simp [Doc.isSpace]), ih]
      rfl

theorem flat_things (ls : List (Line ι)) : things [oneLine ls] = things ls := by
  rw [← flat_flatten ls, things, List.flatten_cons, List.flatten_nil, List.append_nil]

theorem flat_imports (ls : List (Line ι)) : Doc.importsOf [oneLine ls] = Doc.importsOf ls := by
  have : ∀ ls : List (Line ι), (oneLine ls).flatMap Glyph.imports = Doc.importsOf ls := by
    intro ls
    induction ls with
    | nil => rfl
    | cons l ls ih =>
      obtain ⟨s, e1, e2⟩ := flat_cons l ls
      rw [e1, Doc.importsOf, List.flatMap_cons, List.flatMap_append]
      rcases e2 with ⟨rfl, rfl⟩ | ⟨-, rfl⟩
      · rfl
      · rw [List.flatMap_cons, ih]
        rfl
  rw [← this ls, Doc.importsOf, List.flatMap_cons, List.flatMap_nil, List.append_nil]

theorem flat_framed (ls : List (Line ι)) : framed [oneLine ls] = framed ls := by
  rw [framed, framed, flat_things]

theorem seen_things (C : Compiler) (ls : List (Line ι)) : things (seenBy C ls) = things ls := by
  cases C with
  | nightly => rfl
  | stable => exact flat_things ls

theorem seen_imports (C : Compiler) (ls : List (Line ι)) : Doc.importsOf (seenBy C ls) = Doc.importsOf ls := by
  cases C with
  | nightly => rfl
  | stable => exact flat_imports ls

/-! ## What a text means on any compiler -/

/-- The column of a place, if the compiler knows it. -/
def At (C : Compiler) (p : Place) (k : Nat) : Prop := C = .stable ∨ p.column = k

variable {C : Compiler} {ρ : Env}

theorem At.go {p : Place} {k : Nat} (h : At C p k) (s : Str) : At C (go p s) (Doc.behind k s) := by
  rcases h with h | rfl
  · exact .inl h
  · exact .inr (go_column s p)

theorem At.next {p : Place} {k : Nat} (h : At C p k) {c : Char} (hc : c ≠ '\n') : At C (p.next c) (k + 1) := by
  rcases h with h | rfl
  · exact .inl h
  · exact .inr (by simp [Place.next, hc])

theorem held_join {a b : Line ι} : ∀ {ρ ρ₁ ρ' : Env} {p : Place}, Held C S L cfg H ρ p a ρ₁ →
    Held C S L cfg H ρ₁ (go p (sourceLine a)) b ρ' → Held C S L cfg H ρ p (a ++ b) ρ' := by
  induction a with
  | nil => intro ρ ρ₁ ρ' p h h'; cases h; exact h'
  | cons x a ih =>
    intro ρ ρ₁ ρ' p h h'
    cases x with
    | char c => exact ih (p := p.next c) h h'
    | hole s vs is =>
      obtain ⟨ρ₂, h1, h2⟩ := h
      rw [show sourceLine (.hole s vs is :: a) = s ++ sourceLine a from rfl, go_append] at h'
      exact ⟨ρ₂, h1, ih h2 h'⟩

/-- The holes of a text, in its lines and in the lines the compiler sees. -/
def HeldIn (C : Compiler) (S : Syn) (L : Lang ι) (cfg : Config) (H : Host ι (List TT) Env) (ρ : Env) (p : Place)
    (ls : List (Line ι)) (ρ' : Env) : Prop :=
  HeldAll C S L cfg H ρ p ls ρ' ∧ (C = .stable → Held C S L cfg H ρ p (oneLine ls) ρ')

theorem text_meant (hv : ∀ ρ e, ∀ c ∈ H.value ρ e, ¬ EmptyCall c) (hs : ∀ ρ e, ∀ c ∈ H.scope ρ e, ¬ EmptyCall c)
    (hQ : HomQuote L) {k : Nat} {ls : List (Line ι)} (hf : Fit k (seenBy C ls)) {p : Place} (hp : At C p k)
    {ρ' : Env} (hh : HeldIn C S L cfg H ρ p ls ρ') :
    ∃ ts ns r ss, Meant C S L cfg H ρ k (sourceOf ls) (seenBy C ls) p ts ns r ss := by
  obtain ⟨h1, h2⟩ := hh
  cases C with
  | nightly =>
    rcases hp with hp | rfl
    · cases hp
    · obtain ⟨F, rows, h⟩ := text_lined ls ρ p p.line 0 rfl hf.sound h1
      exact lined_meant hv hs hQ hf h
  | stable =>
    have h2 := h2 rfl
    have hso := hf.sound (oneLine ls) (by simp [seenBy])
    obtain ⟨F, rows, h⟩ := line_lined hso h2
    obtain ⟨ts, ns, r, ss, hM⟩ := lined_meant hv hs hQ (one_fit hf _) h
    refine ⟨ts, ns, r, ss, flat_reads hso h2 h1 hM.reads, hM.means, hM.ink, hM.quoted, ?_, hM.uniform, fun _ hfr => ?_, hM.imports, hM.leads⟩
    · rw [hM.lines, one_lines, seenBy, one_lines]
    · exact hM.block (one_level _ _) hfr

/-- Text with one hole at most that writes nothing. -/
theorem none_meant (hv : ∀ ρ e, ∀ c ∈ H.value ρ e, ¬ EmptyCall c) (hs : ∀ ρ e, ∀ c ∈ H.scope ρ e, ¬ EmptyCall c)
    {ls : List (Line ι)} (hsd : ∀ l ∈ seenBy C ls, Sound l) (h1 : (things ls).length ≤ 1) (h2 : (things ls).all Glyph.isVoid = true) {p : Place}
    {ρ' : Env} (hh : HeldIn C S L cfg H ρ p ls ρ') : ∃ ts ns r ss, ReadsAs C p (sourceOf ls) Halt ts ∧
      Means S (.nodes ts ns) ∧ emptyText ns = false ∧ Macro.quote none ns = .ok (r, ss) ∧
      runBlock H ρ ss = [] ∧ Doc.importsOf ls = [] := by
  obtain ⟨k1, k2⟩ := hh
  cases C with
  | nightly =>
    obtain ⟨F, rows, h⟩ := text_lined ls ρ p p.line 0 rfl hsd k1
    exact lined_none hv hs h1 h2 h
  | stable =>
    have k2 := k2 rfl
    have hso := hsd (oneLine ls) (by simp [seenBy])
    obtain ⟨F, rows, h⟩ := line_lined hso k2
    obtain ⟨ts, ns, r, ss, m1, m2, m3, m4, m5, m6⟩ := lined_none hv hs (by rw [flat_things]; exact h1) (by rw [flat_things]; exact h2) h
    exact ⟨ts, ns, r, ss, flat_reads hso k2 k1 m1, m2, m3, m4, m5, by rw [← m6, flat_imports]⟩

end


end Genco.Proofs.DocFile
