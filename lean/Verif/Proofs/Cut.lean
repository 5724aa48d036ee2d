import Verif.Proofs.MacroText
import Verif.Spec.Template

/-!
# Constant text may be cut anywhere
-/

set_option autoImplicit false

namespace Genco.Macro

open Spec Spec.MacroFile Spec.Template Tokens

variable {ι : Type}

theorem splitOf_refl (b : Bool) (x : List (Item ι)) : SplitOf True b x x := by
  induction x generalizing b with
  | nil => exact .nil
  | cons i x ih => exact .same i (ih _)

theorem splitOf_any {b b' : Bool} {x y : List (Item ι)} (h : SplitOf True b x y) : SplitOf True b' x y := by
  cases h with
  | nil => exact .nil
  | same i h => exact .same i h
  | split s l t _ ht h => exact .split s l t (fun _ => trivial) ht h

theorem splitOf_append {b : Bool} (w : List (Item ι)) {x y : List (Item ι)} (h : ∀ b, SplitOf True b x y) :
    SplitOf True b (w ++ x) (w ++ y) := by
  induction w generalizing b with
  | nil => exact h b
  | cons i w ih => exact .same i ih

theorem norm_lits (l : List ItemStr) (x : List (Item ι)) :
    norm (l.map .literal ++ x) = l.map .literal ++ norm x := by
  induction l with
  | nil => rfl
  | cons s l ih =>
    have := norm_split [] (l.map .literal ++ x) (.literal s) rfl
    rw [List.nil_append] at this
    rw [List.map_cons, List.cons_append, this, ih]
    rfl

/-- Splitting is not disturbed by merging of whitespace. -/
theorem splitOf_norm {b : Bool} {x y : List (Item ι)} (h : SplitOf True b x y) :
    ∀ (w : List (Item ι)) (b' : Bool), SplitOf True b' (norm (w ++ x)) (norm (w ++ y)) := by
  induction h with
  | nil => intro w b'; exact splitOf_refl _ _
  | @same b x y i h ih =>
    intro w b'
    cases hi : isWs i with
    | true =>
      have := ih (w ++ [i]) b'
      simpa using this
    | false =>
      rw [norm_split _ _ _ hi, norm_split _ _ _ hi]
      exact splitOf_append _ (fun b => .same _ (ih [] _))
  | @split b x y s l t hb ht h ih =>
    intro w b'
    rw [norm_split _ _ _ rfl, List.cons_append, norm_split _ _ _ rfl, norm_lits]
    refine splitOf_append _ (fun b => ?_)
    exact .split s l t (fun _ => trivial) ht (ih [] _)

/-- Without evaluations it does not matter how they are written. -/
theorem splitOf_weak {D : Prop} {b : Bool} {x y : List (Item ι)} (h : SplitOf True b x y) :
    (D ∨ b = false ∧ ∀ i ∈ y, opensEval i = false) → SplitOf D b x y := by
  induction h with
  | nil => intro _; exact .nil
  | @same b x y i h ih =>
    intro hD
    refine .same i (ih ?_)
    rcases hD with hD | ⟨-, hD⟩
    · exact .inl hD
    · exact .inr ⟨hD i (by simp), fun j hj => hD j (by simp [hj])⟩
  | @split b x y s l t hb ht h ih =>
    intro hD
    refine .split s l t (fun e => ?_) ht (ih ?_)
    · rcases hD with hD | ⟨hD, -⟩
      · exact hD
      · rw [hD] at e; cases e
    · rcases hD with hD | ⟨-, hD⟩
      · exact .inl hD
      · exact .inr ⟨rfl, fun j hj => hD j (by simp [hj])⟩

theorem flatten_singles (s : Str) : (s.map (fun c => [c])).flatten = s := by
  induction s with
  | nil => rfl
  | cons c s ih => rw [List.map_cons, List.flatten_cons, ih]; rfl

theorem chars_items (s : Str) : (s.map (Mark.char (ι := ι))).flatMap markItems =
    s.map (fun c => .literal (.static [c])) := by
  induction s with
  | nil => rfl
  | cons c s ih => rw [List.map_cons, List.flatMap_cons, ih]; rfl

theorem letter_ws {i : Item ι} (h : isWs i = true) : letter i = [i] := by
  cases i <;> first | rfl | cases h

theorem letter_cons (i : Item ι) : ∃ x r, letter i = x :: r ∧ isWs x = isWs i ∧ opensEval x = opensEval i := by
  cases i with
  | literal s =>
    show ∃ x r, spell s.text = x :: r ∧ _
    cases s.text with
    | nil => exact ⟨_, _, rfl, rfl, rfl⟩
    | cons c r => exact ⟨_, _, rfl, rfl, rfl⟩
  | _ => exact ⟨_, _, rfl, rfl, rfl⟩

theorem letter_erase (i : Item ι) : letter (erase i) = letter i := by cases i <;> rfl

theorem letters_append (a b : List (Item ι)) : letters (a ++ b) = letters a ++ letters b := List.flatMap_append

theorem letters_cons (i : Item ι) (l : List (Item ι)) : letters (i :: l) = letter i ++ letters l := rfl

theorem letters_erase (l : List (Item ι)) : letters (l.map erase) = letters l := by
  induction l with
  | nil => rfl
  | cons i l ih => rw [List.map_cons, letters_cons, letters_cons, ih, letter_erase]

/-- The letters split the text. -/
theorem splitOf_letters (l : List (Item ι)) (b : Bool) : SplitOf True b (letters l) (l.map erase) := by
  induction l generalizing b with
  | nil => exact .nil
  | cons i l ih =>
    rw [letters_cons, List.map_cons]
    have gen : letter i = [erase i] → SplitOf True b (letter i ++ letters l) (erase i :: l.map erase) := by
      intro h
      rw [h]
      exact .same _ (ih _)
    cases i with
    | literal s =>
      show SplitOf True b (spell s.text ++ letters l) (.literal s :: l.map erase)
      cases ht : s.text with
      | nil => exact .split (.static []) [] s (fun _ => trivial) (by rw [ht]; rfl) (ih _)
      | cons d r =>
        have := SplitOf.split (D := True) (b := b) (.static [d]) (r.map (fun c => .static [c])) s
          (fun _ => trivial) (by
            rw [ht, List.map_map]
            show _ = d :: (r.map (fun c => [c])).flatten
            rw [flatten_singles]) (ih false)
        rw [List.map_map] at this
        exact this
    | _ => exact gen rfl

theorem letter_solid {i : Item ι} (hi : isWs i = false) (w l : List (Item ι)) :
    norm (w ++ (letter i ++ l)) = norm w ++ (letter i ++ norm l) := by
  have gen : letter i = [erase i] → norm (w ++ (letter i ++ l)) = norm w ++ (letter i ++ norm l) := by
    intro h
    have he : isWs (erase i) = false := by cases i <;> first | rfl | exact hi
    rw [h]
    show norm (w ++ erase i :: l) = _
    rw [norm_split _ _ _ he]
    congr 1
    cases i <;> rfl
  cases i with
  | literal s =>
    show norm (w ++ (spell s.text ++ l)) = norm w ++ (spell s.text ++ norm l)
    cases s.text with
    | nil => exact norm_split w l (.literal (.static [])) rfl
    | cons d r =>
      show norm (w ++ .literal (.static [d]) :: (r.map (fun c => .literal (.static [c])) ++ l)) = _
      rw [norm_split _ _ _ rfl]
      have := norm_lits (r.map (fun c => .static [c])) l
      rw [List.map_map] at this
      rw [show (r.map (fun c => Item.literal (ι := ι) (.static [c])) ++ l) =
        r.map (Item.literal ∘ fun c => ItemStr.static [c]) ++ l from rfl, this]
      rfl
  | _ => exact gen rfl

theorem opens_erase {l : List (Item ι)} (h : ∀ i ∈ l, opensEval i = false) :
    ∀ i ∈ l.map erase, opensEval i = false := by
  intro i hi
  obtain ⟨j, hj, rfl⟩ := List.mem_map.1 hi
  have := h j hj
  cases j <;> first | rfl | exact this

theorem ws_norm (w : List (Item ι)) (h : ∀ i ∈ w, isWs i = true) : ∀ i ∈ norm w, isWs i = true := by
  have gen : ∀ (l : List (Item ι)) (t : Tokens ι), (∀ i ∈ l, isWs i = true) →
      (∀ i ∈ t.rev, isWs i = true) → ∀ i ∈ (t.extend l).rev, isWs i = true := by
    intro l
    induction l with
    | nil => intro t _ ht; exact ht
    | cons x l ih =>
      intro t hl ht
      refine ih (t.item x) (fun i hi => hl i (by simp [hi])) ?_
      have hx := hl x (by simp)
      intro i hi
      cases x with
      | space => rcases mem_spaceRev hi with rfl | hi; · rfl
                 exact ht i hi
      | push => rcases mem_pushRev hi with rfl | hi; · rfl
                exact ht i hi
      | line => rcases mem_lineRev hi with rfl | hi; · rfl
                exact ht i hi
      | indentation n =>
        rcases mem_indentationRev hi with ⟨m, rfl⟩ | hi
        · rfl
        · exact ht i hi
      | _ => cases hx
  intro i hi
  obtain ⟨j, hj, rfl⟩ := List.mem_map.1 hi
  have := gen w Tokens.new h (by intro i hi; cases hi) j (List.mem_reverse.1 hj)
  cases j <;> first | rfl | exact this

theorem letters_ws {w : List (Item ι)} (h : ∀ i ∈ w, isWs i = true) : letters w = w := by
  induction w with
  | nil => rfl
  | cons i w ih =>
    rw [letters_cons, ih (fun j hj => h j (by simp [hj])), letter_ws (h i (by simp))]
    rfl

/-- Whitespace is merged in the same way. -/
theorem letters_norm (l : List (Item ι)) : letters (norm l) = norm (letters l) := by
  have gen : ∀ (l w : List (Item ι)), (∀ i ∈ w, isWs i = true) → letters (norm (w ++ l)) = norm (w ++ letters l) := by
    intro l
    induction l with
    | nil =>
      intro w hw
      rw [List.append_nil, show letters ([] : List (Item ι)) = [] from rfl, List.append_nil,
        letters_ws (ws_norm w hw)]
    | cons i l ih =>
      intro w hw
      cases hi : isWs i with
      | true =>
        rw [letters_cons, letter_ws hi]
        have := ih (w ++ [i]) (by
          intro j hj
          rcases List.mem_append.1 hj with hj | hj
          · exact hw j hj
          · cases List.mem_singleton.1 hj; exact hi)
        simpa using this
      | false =>
        rw [norm_split _ _ _ hi, letters_append, letters_cons, letter_erase, letters_ws (ws_norm w hw),
          letters_cons, letter_solid hi]
        have := ih [] (by intro j hj; cases hj)
        rw [List.nil_append, List.nil_append] at this
        rw [this]
  exact gen l [] (by intro j hj; cases hj)

theorem norm_history (cs : List (Call ι)) : norm (cs.flatMap callItems) = (history cs).items.map erase := by
  rw [norm, history_eq]

theorem letters_history (cs : List (Call ι)) : letters (history cs).items = norm (letters (cs.flatMap callItems)) := by
  rw [← letters_norm, norm_history, letters_erase]

theorem opens_letters (l : List (Item ι)) :
    (∀ i ∈ letters l, opensEval i = false) ↔ ∀ i ∈ l, opensEval i = false := by
  constructor
  · intro h i hi
    obtain ⟨x, r, e, -, h2⟩ := letter_cons i
    rw [← h2]
    exact h x (List.mem_flatMap.2 ⟨i, hi, by rw [e]; simp⟩)
  · intro h i hi
    obtain ⟨j, hj, hi⟩ := List.mem_flatMap.1 hi
    have hj := h j hj
    cases j with
    | literal s =>
      change i ∈ spell s.text at hi
      cases ht : s.text with
      | nil => rw [ht] at hi; cases List.mem_singleton.1 hi; rfl
      | cons c r =>
        rw [ht] at hi
        obtain ⟨d, -, rfl⟩ := List.mem_map.1 hi
        rfl
    | openEval => cases hj
    | _ => cases List.mem_singleton.1 hi; rfl

theorem opens_norm {l : List (Item ι)} (h : ∀ i ∈ l, opensEval i = false) :
    ∀ i ∈ norm l, opensEval i = false := by
  refine opens_erase ?_
  have gen : ∀ (l : List (Item ι)) (t : Tokens ι), (∀ i ∈ l, opensEval i = false) →
      (∀ i ∈ t.rev, opensEval i = false) → ∀ i ∈ (t.extend l).rev, opensEval i = false := by
    intro l
    induction l with
    | nil => intro t _ ht; exact ht
    | cons x l ih =>
      intro t hl ht
      refine ih (t.item x) (fun i hi => hl i (by simp [hi])) ?_
      have hx := hl x (by simp)
      intro i hi
      cases x with
      | space => rcases mem_spaceRev hi with rfl | hi; · rfl
                 exact ht i hi
      | push => rcases mem_pushRev hi with rfl | hi; · rfl
                exact ht i hi
      | line => rcases mem_lineRev hi with rfl | hi; · rfl
                exact ht i hi
      | indentation n =>
        rcases mem_indentationRev hi with ⟨m, rfl⟩ | hi
        · rfl
        · exact ht i hi
      | openEval => cases hx
      | _ =>
        rcases List.mem_cons.1 hi with rfl | hi
        · rfl
        · exact ht i hi
  intro i hi
  exact gen l Tokens.new h (by intro i hi; cases hi) i (List.mem_reverse.1 hi)

/-- Streams with the same letters are rendered in the same way. -/
theorem toVec_letters (L : Lang ι) (hQ : HomQuote L) (cfg : Config) (x y : List (Item ι)) (hE : Uniform L x)
    (h : letters x = letters y) : toVec L cfg x = toVec L cfg y := by
  have one : ∀ l : List (Item ι), Uniform L l → toVec L cfg l = toVec L cfg (letters l) := by
    intro l hE
    have h2 := splitOf_weak (D := ∀ s, L.evalLiteral s = L.startEval ++ [s] ++ L.endEval)
      (splitOf_letters l false) (by
      rcases hE with hE | hE
      · exact .inl hE
      · exact .inr ⟨rfl, opens_erase hE⟩)
    obtain ⟨e1, e2⟩ := resolveItems_split L hQ _ id cfg _ _ h2
    have e3 : toVec L cfg l = toVec L cfg (l.map erase) := by
      refine toVec_congr L cfg ?_
      rw [List.map_map]
      refine List.map_congr_left (fun i _ => ?_)
      cases i <;> rfl
    rw [e3, toVec_eq, toVec_eq, e2, ← vecActs_explode, ← e1, vecActs_explode]
  have hE' : Uniform L y := hE.imp id (fun hx => (opens_letters y).1 (by rw [← h]; exact (opens_letters x).2 hx))
  rw [one x hE, one y hE', h]

/-- Letters of calls are letters of their marks. -/
theorem letters_marks (cs : List (Call ι)) (h : ∀ c ∈ cs, ¬ EmptyCall c) :
    letters (cs.flatMap callItems) = letters ((marks cs).flatMap markItems) := by
  induction cs with
  | nil => rfl
  | cons c cs ih =>
    have ih := ih (fun d hd => h d (by simp [hd]))
    rw [List.flatMap_cons, letters_append, ih,
      show marks (c :: cs) = markOf c ++ marks cs from rfl, List.flatMap_append, letters_append]
    congr 1
    have gen : markOf c = [.call c] → letters (callItems c) = letters ((markOf c).flatMap markItems) := by
      intro hm
      rw [hm]
      show _ = letters (callItems c ++ [])
      rw [List.append_nil]
    cases c with
    | append i =>
      cases i with
      | literal l =>
        cases l with
        | «static» s =>
          have hs : s ≠ [] := fun e => h (.append (.literal (.static s))) (by simp) (by rw [e]; rfl)
          obtain ⟨d, s, rfl⟩ := List.exists_cons_of_ne_nil hs
          rw [show markOf (.append (.literal (.static (d :: s)))) = (d :: s).map (Mark.char (ι := ι)) from rfl,
            chars_items]
          show letter (.literal (.static (d :: s))) ++ [] = _
          rw [List.append_nil]
          show (d :: s).map (fun c => Item.literal (.static [c])) = _
          generalize d :: s = t
          induction t with
          | nil => rfl
          | cons a t ih => rw [List.map_cons, letters_cons, ← ih]; rfl
        | _ => exact gen rfl
      | _ => exact gen rfl
    | _ => exact gen rfl

end Genco.Macro
