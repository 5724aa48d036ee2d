import Verif.Proofs.Source
import Verif.Spec.Files

/-!
# The imports of source text, and how a body starts
-/

set_option autoImplicit false

namespace Genco.Proofs.TextFile

open Genco Macro Spec Spec.Text Spec.MacroFile Spec.Template Genco.Proofs

variable {ι E Env : Type}

/-! ## Streams that start with text -/

/-- There is text, and no space before it. -/
def ink (f : ι → List Str) : List (Item ι) → Bool
  | [] => false
  | .literal s :: r => s.text ≠ [] || ink f r
  | .lang _ i :: r => (f i).flatten ≠ [] || ink f r
  | .push :: r | .line :: r | .indentation _ :: r | .register _ _ :: r => ink f r
  | .space :: _ => false
  | _ => true

theorem ink_leads (f : ι → List Str) : ∀ l : List (Item ι), ink f l = true → leadsWithSpace f l = false
  | [], h => by cases h
  | i :: r, h => by
    have ih := ink_leads f r
    cases i with
    | literal s =>
      simp only [ink, leadsWithSpace, Bool.or_eq_true, decide_eq_true_eq, Bool.and_eq_false_iff] at h ⊢
      rcases h with h | h
      · left; simpa using h
      · exact .inr (ih h)
    | lang p i =>
      simp only [ink, leadsWithSpace, Bool.or_eq_true, decide_eq_true_eq, Bool.and_eq_false_iff] at h ⊢
      rcases h with h | h
      · left; simpa using h
      · exact .inr (ih h)
    | register p i => exact ih h
    | push => exact ih h
    | line => exact ih h
    | indentation n => exact ih h
    | space => cases h
    | _ => rfl

/-- What one item does. -/
theorem ink_cons (f : ι → List Str) (i : Item ι) :
    (∃ b, ∀ r, ink f (i :: r) = b) ∨ ∀ r, ink f (i :: r) = ink f r := by
  cases i with
  | literal s =>
    by_cases hs : s.text = []
    · right; intro r; simp [ink, hs]
    · left; exact ⟨true, fun r => by simp [ink, hs]⟩
  | lang p i =>
    by_cases hs : (f i).flatten = []
    · right; intro r; rw [ink, hs]; simp
    · left; exact ⟨true, fun r => by rw [ink]; simp only [hs, ne_eq, not_false_eq_true, decide_true, Bool.true_or]⟩
  | register p i => right; intro r; rfl
  | push => right; intro r; rfl
  | line => right; intro r; rfl
  | indentation n => right; intro r; rfl
  | space => left; exact ⟨false, fun r => rfl⟩
  | _ => left; exact ⟨true, fun r => rfl⟩

/-- What whitespace does. -/
theorem ink_ws (f : ι → List Str) (w : List (Item ι)) (h : ∀ i ∈ w, isWs i = true) :
    (∀ r, ink f (w ++ r) = false) ∨ ∀ r, ink f (w ++ r) = ink f r := by
  induction w with
  | nil => exact .inr (fun r => rfl)
  | cons i w ih =>
    have hi := h i (by simp)
    have ih := ih (fun j hj => h j (by simp [hj]))
    cases i with
    | push => exact ih
    | line => exact ih
    | indentation n => exact ih
    | space => exact .inl (fun r => rfl)
    | _ => cases hi

theorem ink_letter (f : ι → List Str) (i : Item ι) (r : List (Item ι)) : ink f (letter i ++ r) = ink f (i :: r) := by
  cases i with
  | literal s =>
    show ink f (spell s.text ++ r) = _
    rw [show ink f (.literal s :: r) = (decide (s.text ≠ []) || ink f r) from rfl]
    cases s.text <;> rfl
  | _ => rfl

theorem ink_letters (f : ι → List Str) (l : List (Item ι)) : ink f (letters l) = ink f l := by
  induction l with
  | nil => rfl
  | cons i l ih =>
    rw [letters_cons, ink_letter]
    rcases ink_cons f i with ⟨b, h⟩ | h
    · rw [h, h]
    · rw [h, h, ih]

/-- Whitespace goes away at the end only, and what has been written stays. -/
theorem ink_norm (f : ι → List Str) (b : List (Item ι)) : ∀ (a w : List (Item ι)), (∀ i ∈ w, isWs i = true) →
    ink f (norm (w ++ a)) = true → ink f (norm (w ++ (a ++ b))) = true := by
  intro a
  induction a with
  | nil =>
    intro w hw h
    rw [List.append_nil] at h
    have h' : ink f (norm w ++ []) = true := by rwa [List.append_nil]
    rcases ink_ws f _ (ws_norm w hw) with k | k
    · rw [k] at h'; cases h'
    · rw [k] at h'; cases h'
  | cons i a ih =>
    intro w hw h
    cases hi : isWs i with
    | true =>
      have := ih (w ++ [i]) (by
        intro j hj
        rcases List.mem_append.1 hj with hj | hj
        · exact hw j hj
        · cases List.mem_singleton.1 hj; exact hi)
      simp only [List.append_assoc, List.singleton_append] at this
      exact this h
    | false =>
      rw [norm_split _ _ _ hi] at h
      rw [List.cons_append, norm_split _ _ _ hi]
      rcases ink_ws f _ (ws_norm w hw) with k | k
      · rw [k] at h; cases h
      · rw [k] at h ⊢
        rcases ink_cons f (erase i) with ⟨b, k⟩ | k
        · rw [k] at h ⊢; exact h
        · rw [k] at h ⊢
          exact ih [] (by intro j hj; cases hj) h

theorem code_ink (L : Lang ι) (cfg : Config) : ∀ (c : Code ι), c.plain = true →
    (∃ s r, seen (c.acts L cfg) = .text s :: r ∧ s ≠ []) → ink L.langItem c.items = true
  | .nil, _, ⟨_, _, h, _⟩ => by cases h
  | .quote e b r, _, _ => rfl
  | .item i r, hp, h => by
    have hp' : isPlain i = true ∧ r.plain = true := by simpa [Code.plain] using hp
    have ih := code_ink L cfg r hp'.2
    show ink L.langItem (i :: r.items) = true
    obtain ⟨s, t, h, hs⟩ := h
    rw [Code.acts, seen, List.filter_append] at h
    cases i with
    | literal x =>
      by_cases hx : x.text = []
      · simp only [ink, hx, Bool.or_eq_true]
        exact .inr (ih ⟨s, t, by simpa [seen, plainActs, hx] using h, hs⟩)
      · simp [ink, hx]
    | lang p x =>
      by_cases hx : (L.langItem x).flatten = []
      · simp only [ink, hx, Bool.or_eq_true]
        refine .inr (ih ⟨s, t, ?_, hs⟩)
        have : List.filter (fun a => decide (a ≠ Act.text [])) (plainActs L.langItem (.lang p x)) = [] := by
          rw [List.filter_eq_nil_iff]
          intro a ha
          obtain ⟨y, hy, rfl⟩ := List.mem_map.1 ha
          have := List.flatten_eq_nil_iff.1 hx y hy
          simp [this]
        rwa [this, List.nil_append] at h
      · simp only [ink, Bool.or_eq_true]
        exact .inl (by simpa using hx)
    | register p x => exact ih ⟨s, t, by simpa [seen, plainActs] using h, hs⟩
    | push => simp [plainActs] at h
    | line => simp [plainActs] at h
    | space => simp [plainActs] at h
    | indentation n =>
      by_cases hn : n = 0
      · exact ih ⟨s, t, by simpa [seen, plainActs, hn] using h, hs⟩
      · simp [plainActs, hn] at h
    | _ => simp [isPlain] at hp'

theorem block_ink {L : Lang ι} {cfg : Config} {cs : List (Call ι)} (h : Template.Block L cfg cs) :
    ink L.langItem (norm (letters (cs.flatMap callItems))) = true := by
  obtain ⟨c, h1, h2, h3⟩ := h.code
  rw [← letters_history, h2, ink_letters]
  exact code_ink L cfg c h1 h3.first

/-! ## Imports -/

theorem langs_letters (l : List (Item ι)) : (letters l).filterMap langOf = l.filterMap langOf := by
  induction l with
  | nil => rfl
  | cons i l ih =>
    rw [letters_cons, List.filterMap_append, ih]
    cases i with
    | literal s =>
      show (spell s.text).filterMap langOf ++ _ = _
      have : ((spell s.text : List (Item ι))).filterMap langOf = [] := by
        rw [List.filterMap_eq_nil_iff]
        intro x hx
        cases hs : s.text with
        | nil => rw [hs] at hx; cases List.mem_singleton.1 hx; rfl
        | cons c t =>
          rw [hs] at hx
          obtain ⟨d, -, rfl⟩ := List.mem_map.1 hx
          rfl
      rw [this]
      rfl
    | _ => rfl

theorem inserted_append (a b : List (Call ι)) : inserted (a ++ b) = inserted a ++ inserted b := by
  simp [inserted]

theorem inserted_gap (w : List WsCall) : inserted (w.map WsCall.call : List (Call ι)) = [] := by
  induction w with
  | nil => rfl
  | cons c w ih =>
    rw [List.map_cons, ← List.singleton_append, inserted_append, ih]
    cases c <;> rfl

theorem inserted_rest (C : (Cur → Node E) → List (Call ι)) (r : List (Nat × Slot E)) :
    inserted (restCalls C r) = r.flatMap (fun p => inserted (slotCalls C p.2)) := by
  induction r with
  | nil => rfl
  | cons p r ih =>
    have : restCalls C (p :: r) = ((if p.1 = 0 then [] else [.space]) ++ slotCalls C p.2) ++ restCalls C r := rfl
    rw [this, inserted_append, inserted_append, ih, List.flatMap_cons]
    split <;> rfl

theorem inserted_row (C : (Cur → Node E) → List (Call ι)) (l : Row E) :
    inserted (slotCalls C l.first) ++ inserted (restCalls C l.rest) =
      l.slots.flatMap (fun s => inserted (slotCalls C s)) := by
  rw [inserted_rest, Row.slots, List.flatMap_cons, List.flatMap_map]

theorem inserted_tail (C : (Cur → Node E) → List (Call ι)) (ls : List (Row E)) : ∀ p past,
    inserted (tailCalls C p past ls) = ls.flatMap (fun l => l.slots.flatMap (fun s => inserted (slotCalls C s))) := by
  induction ls with
  | nil => intro p past; exact inserted_gap _
  | cons l ls ih =>
    intro p past
    rw [tailCalls, inserted_append, inserted_append, inserted_append, inserted_gap, ih, List.flatMap_cons,
      ← inserted_row]
    simp

theorem inserted_all (C : (Cur → Node E) → List (Call ι)) (l : Row E) (ls : List (Row E)) :
    inserted (allCalls C l ls) = (l :: ls).flatMap (fun l => l.slots.flatMap (fun s => inserted (slotCalls C s))) := by
  rw [allCalls, inserted_append, inserted_append, inserted_tail, List.flatMap_cons, ← inserted_row]
  simp

/-- What a template makes has the imports of its holes, in order, and starts with text. -/
theorem template_stream (H : Host ι E Env) (hv : ∀ ρ e, ∀ c ∈ H.value ρ e, ¬ EmptyCall c)
    (hs : ∀ ρ e, ∀ c ∈ H.scope ρ e, ¬ EmptyCall c) (ρ : Env) (L : Lang ι) (cfg : Config)
    (C : (Cur → Node E) → List (Call ι)) (V : (Cur → Node E) → List Str) (ls : List (Row E)) (hl : ls ≠ [])
    (h : ∀ x ∈ ls, ∀ s ∈ x.slots, SlotIn H ρ L cfg C V s) (ho : Template.Offside [] ls) (line : Nat)
    (ns : List (Node E)) (hn : flatten ns = placeRows line ls) :
    ∃ r ss, Macro.quote none ns = .ok (r, ss) ∧
      inserted (runBlock H ρ ss) = ls.flatMap (fun l => l.slots.flatMap (fun s => inserted (slotCalls C s))) ∧
      leadsWithSpace L.langItem (history (runBlock H ρ ss)).items = false := by
  obtain ⟨l, ls, rfl⟩ := List.exists_cons_of_ne_nil hl
  obtain ⟨r, ss, h1, -, h2⟩ := template_run H hv hs ρ C l ls (fun x hx s hs => slotIn_fills (h x hx s hs)) ho line ns hn
  refine ⟨r, ss, h1, ?_, ?_⟩
  · rw [← inserted_all, inserted, ← langs_letters, h2, langs_letters, inserted]
  · apply ink_leads
    rw [← ink_letters, letters_history, h2, allCalls, List.flatMap_append, letters_append]
    have hb := (slotIn_ok (h l (by simp) l.first (by simp [Row.slots]))).block
    exact ink_norm L.langItem _ _ [] (by intro j hj; cases hj) (block_ink hb)

/-! ## The names -/

/-- The names behind the dollars in a list of words. -/
def called : List (Nat × Str) → List Str
  | [] => []
  | [_] => []
  | (_, s) :: (h, n) :: r =>
    if s = ['$'] then (if n = ['$'] then called r else n :: called r) else called ((h, n) :: r)

theorem called_plain {g : Nat} {s : Str} (h : s ≠ ['$']) (r : List (Nat × Str)) : called ((g, s) :: r) = called r := by
  cases r with
  | nil => rfl
  | cons p r => obtain ⟨_, _⟩ := p; rw [called, if_neg h]

theorem scan_called (k : Nat) : ∀ (l : Str), l.length ≤ k → Spec.Text.marked l = true →
    ∀ g, called (scan g [] l) = names l := by
  induction k with
  | zero =>
    intro l hk
    cases l with
    | nil => intros; rfl
    | cons => simp at hk
  | succ k ih =>
    intro l hk hm g
    cases l with
    | nil => rfl
    | cons c l =>
      have hk' : l.length ≤ k := by simpa using hk
      by_cases hn : nameChar c = true
      · have hd : c ≠ '$' := by rintro rfl; revert hn; decide
        rw [scan, if_pos hn, scan_name l g [c] (by simp), called_plain, names_cons hd]
        · rw [marked_cons hd] at hm
          rw [ih _ (Nat.le_trans (List.length_dropWhile_le ..) hk') (marked_drop l hm), names_drop]
        · simp [hd]
      · rw [scan, if_neg hn]
        by_cases hb : blankChar c = true
        · have hd : c ≠ '$' := by rintro rfl; revert hb; decide
          rw [if_pos hb, if_pos rfl]
          rw [marked_cons hd] at hm
          rw [names_cons hd]
          exact ih l hk' hm _
        · rw [if_neg hb, if_pos rfl]
          by_cases hd : c = '$'
          · subst hd
            cases l with
            | nil => simp [Spec.Text.marked] at hm
            | cons d l =>
              have hk2 : l.length ≤ k := by simp at hk'; omega
              by_cases he : d = '$'
              · subst he
                rw [scan, if_neg (by decide), if_neg (by decide), if_pos rfl]
                rw [Spec.Text.marked] at hm
                rw [names, called, if_pos rfl, if_pos rfl]
                exact ih l hk2 hm 0
              · rw [marked_dollar he, Bool.and_eq_true, Bool.and_eq_true] at hm
                rw [names_dollar he, names_cons he]
                obtain ⟨⟨hn', hd'⟩, hm⟩ := hm
                have ht : (d :: l).takeWhile nameChar = d :: l.takeWhile nameChar := List.takeWhile_cons_of_pos hn'
                rw [scan, if_pos hn', scan_name l 0 [d] (by simp), called, if_pos rfl, if_neg (by simp [he]), ht,
                  ih _ (Nat.le_trans (List.length_dropWhile_le ..) hk2) (marked_drop l hm), names_drop]
                rfl
          · rw [marked_cons hd] at hm
            rw [names_cons hd, called_plain (by simpa using hd)]
            exact ih l hk' hm 0

theorem srcs_called : ∀ (ls : List Str), (∀ l ∈ ls, Spec.Text.marked l = true) → ∀ a,
    (srcs a ls).flatMap (fun l => called ((l.column, l.first) :: l.rest)) = ls.flatMap names
  | [], _, a => rfl
  | m :: ls, h, a => by
    have hc := scan_called _ m (Nat.le_refl _) (h m (by simp)) 0
    have ih := srcs_called ls (fun x hx => h x (by simp [hx]))
    rw [srcs, List.flatMap_cons]
    split
    · rename_i e
      rw [e] at hc
      rw [ih, ← hc]
      rfl
    · rename_i n s r e
      rw [e] at hc
      rw [List.flatMap_cons, ih, hc]

theorem names_textOf : ∀ (ls : List Str), names (Macro.textOf ls) = ls.flatMap names
  | [] => rfl
  | [l] => by simp [Macro.textOf]
  | l :: k :: ls => by
    have e : Macro.textOf (l :: k :: ls) = l ++ '\n' :: Macro.textOf (k :: ls) := rfl
    rw [e, names_append l _ (.inr ⟨_, rfl⟩), names_cons (by decide), names_textOf (k :: ls)]
    simp only [List.flatMap_cons]

/-- The imports of words are those of the names among them. -/
theorem inserted_slots {P : Str → Prop} (C : (Cur → Node (List TT)) → List (Call ι))
    (hd : inserted (C dollarHole) = []) {ws : List (Nat × Str)} (h : Words P ws) :
    (slots ws).flatMap (fun p => inserted (slotCalls C p.2)) = (called ws).flatMap (fun n => inserted (C (nameHole n))) := by
  induction h with
  | nil => rfl
  | @plain g s r h1 h2 h3 ih =>
    have : s ≠ ['$'] := by rintro rfl; simp at h1
    rw [slots_plain h1, called_plain this, List.flatMap_cons, ih]
    rfl
  | @name g n r h1 h2 h3 h4 h5 ih =>
    rw [slots, if_pos rfl, slotOf, if_neg h2.ne, called, if_pos rfl, if_neg h2.ne, List.flatMap_cons, List.flatMap_cons, ih]
    rfl
  | @escape g r h1 ih =>
    rw [slots, if_pos rfl, slotOf, if_pos rfl, called, if_pos rfl, if_pos rfl, List.flatMap_cons, ih]
    show inserted (C dollarHole) ++ _ = _
    rw [hd]
    rfl

theorem inserted_rows {P : Str → Prop} (C : (Cur → Node (List TT)) → List (Call ι))
    (hd : inserted (C dollarHole) = []) (sl : List SrcLine) (h : ∀ l ∈ sl, Words P ((l.column, l.first) :: l.rest)) :
    (sl.map rowOf).flatMap (fun l => l.slots.flatMap (fun s => inserted (slotCalls C s))) =
      (sl.flatMap (fun l => called ((l.column, l.first) :: l.rest))).flatMap (fun n => inserted (C (nameHole n))) := by
  induction sl with
  | nil => rfl
  | cons l sl ih =>
    obtain ⟨x, t, e1, e2⟩ := rowOf_eq l
    have := inserted_slots C hd (h l (by simp))
    rw [e1] at this
    rw [List.map_cons, List.flatMap_cons, List.flatMap_cons, List.flatMap_append, ih (fun m hm => h m (by simp [hm])),
      ← this, e2, Row.slots]
    simp only [List.flatMap_cons, List.flatMap_map]

end Genco.Proofs.TextFile
