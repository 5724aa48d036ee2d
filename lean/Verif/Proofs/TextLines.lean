import Verif.Proofs.Text
import Mathlib.Data.List.TakeWhile

/-!
# Plain source text: the lines
-/

set_option autoImplicit false

namespace Genco.Proofs.TextFile

open Genco Macro Spec.Text Spec.MacroFile

/-! ## Words with the spaces before them -/

/-- The tokens of text with the number of blanks before them. The word that has been begun is in
reverse. -/
def scan : Nat → Str → Str → List (Nat × Str)
  | g, w, [] => if w = [] then [] else [(g, w.reverse)]
  | g, w, c :: r =>
    if nameChar c then scan g (c :: w) r
    else if blankChar c then
      if w = [] then scan (g + 1) [] r else (g, w.reverse) :: scan 1 [] r
    else if w = [] then (g, [c]) :: scan 0 [] r
    else (g, w.reverse) :: (0, [c]) :: scan 0 [] r

section

variable (C : Compiler)

theorem pos_step {c : Char} (h : holeChar c = true) (hc : C = .stable ∨ c ≠ '\n') (p : Place) :
    C.pos (p.next c) = ⟨(C.pos p).line, (C.pos p).column + 1⟩ := by
  by_cases hn : nameChar c = true
  · obtain ⟨_, f2, _, f4, _⟩ := nameChar_facts hn
    exact pos_next C f2 f4 p
  · rcases plain_cases h (by simpa using hn) with (rfl | rfl) | ⟨_, _, _, h4, _, h7, _⟩
    · exact pos_next C (by decide) (by decide) p
    · rcases hc with rfl | hc
      · rfl
      · exact absurd rfl hc
    · exact pos_next C h4 h7 p

/-- The word that has been begun and its place. -/
def Begun (line column : Nat) (g : Nat) (w : Str) : Option (Place × Str) → Prop
  | none => w = []
  | some (start, text) => w = text ∧ text ≠ [] ∧ C.pos start = ⟨line, column + g⟩

theorem toks_begun (p : Place) (w : Option (Place × Str)) (rest : Str)
    (hr : rest = [] ∨ ∃ r, rest = '\n' :: r) :
    toks C p w rest = wordTok C p w ++ toks C p none rest := by
  rcases hr with rfl | ⟨r, rfl⟩
  · simp [toks, wordTok]
  · simp [toks, wordTok, show nameChar '\n' = false by decide, show blankChar '\n' = true by decide]

theorem toks_cons (p : Place) (w : Option (Place × Str)) (c : Char) (r : Str) : toks C p w (c :: r) =
    if nameChar c then
      toks C (p.next c) (match w with
        | some (start, text) => some (start, c :: text)
        | none => some (p, [c])) r
    else wordTok C p w ++ (if blankChar c then [] else [(⟨C.pos p, C.pos (p.next c)⟩, [c])]) ++
      toks C (p.next c) none r := by
  cases w <;> rw [toks]

theorem toks_scan (rest : Str) (hr : rest = [] ∨ ∃ r, rest = '\n' :: r) (l : Str) :
    ∀ (p : Place) (w : Option (Place × Str)) (line column g : Nat) (v : Str), l.all holeChar = true →
    (C = .stable ∨ '\n' ∉ l) → Begun C line column g v w → C.pos p = ⟨line, column + g + v.length⟩ →
    toks C p w (l ++ rest) = placeRest line column (scan g v l) ++ toks C (l.foldl Place.next p) none rest := by
  induction l with
  | nil =>
    intro p w line column g v _ _ hw hp
    rw [List.nil_append, toks_begun C p w rest hr]
    congr 1
    cases w with
    | none => cases hw; rfl
    | some w =>
      obtain ⟨start, text⟩ := w
      obtain ⟨rfl, hne, hs⟩ := hw
      rw [scan, if_neg hne, placeRest, wordTok, hs, hp, List.length_reverse]
      rfl
  | cons c l ih =>
    intro p w line column g v hpl hc hw hp
    rw [List.all_cons, Bool.and_eq_true] at hpl
    have hcl : C = .stable ∨ '\n' ∉ l := hc.imp_right (fun h hm => h (List.mem_cons_of_mem _ hm))
    have hcc : C = .stable ∨ c ≠ '\n' := hc.imp_right (fun h hm => h (by simp [hm]))
    have hs := pos_step C hpl.1 hcc p
    rw [hp] at hs
    simp only at hs
    rw [List.cons_append, toks_cons, scan, List.foldl_cons]
    by_cases hn : nameChar c = true
    · rw [if_pos hn, if_pos hn]
      cases w with
      | none =>
        cases hw
        exact ih _ _ line column g [c] hpl.2 hcl ⟨rfl, by simp, by simpa using hp⟩ (by simpa using hs)
      | some w =>
        obtain ⟨start, text⟩ := w
        obtain ⟨rfl, hne, hst⟩ := hw
        exact ih _ _ line column g (c :: v) hpl.2 hcl ⟨rfl, by simp, hst⟩
          (by rw [hs, List.length_cons, Nat.add_assoc])
    · rw [if_neg hn, if_neg hn]
      by_cases hb : blankChar c = true
      · rw [if_pos hb, if_pos hb, List.append_nil]
        cases w with
        | none =>
          cases hw
          rw [if_pos rfl, wordTok, List.nil_append]
          exact ih _ _ line column (g + 1) [] hpl.2 hcl rfl (by rw [hs]; simp; omega)
        | some w =>
          obtain ⟨start, text⟩ := w
          obtain ⟨rfl, hne, hst⟩ := hw
          rw [if_neg hne, wordTok, placeRest, hst, hp, List.length_reverse,
            ih _ none line (column + g + v.length) 1 [] hpl.2 hcl rfl (by rw [hs]; rfl)]
          rfl
      · rw [if_neg hb, if_neg hb]
        cases w with
        | none =>
          cases hw
          rw [if_pos rfl, wordTok, List.nil_append, placeRest,
            ih _ none line (column + g + 1) 0 [] hpl.2 hcl rfl (by rw [hs]; rfl), hp, hs]
          rfl
        | some w =>
          obtain ⟨start, text⟩ := w
          obtain ⟨rfl, hne, hst⟩ := hw
          rw [if_neg hne, wordTok, placeRest, placeRest, hst, hp, List.length_reverse, hs,
            ih _ none line (column + g + v.length + 1) 0 [] hpl.2 hcl rfl (by rw [hs]; rfl)]
          rfl

end

/-! ## Their text -/

/-- Tokens with single spaces. -/
def joined (r : List (Nat × Str)) : Str := r.flatMap (fun p => (if p.1 = 0 then [] else [' ']) ++ p.2)

theorem joined_cons (g : Nat) (s : Str) (r : List (Nat × Str)) :
    joined ((g, s) :: r) = (if g = 0 then [] else [' ']) ++ (s ++ joined r) := by
  simp [joined]

theorem squeeze_replicate (g : Nat) {c : Char} (hc : c ≠ ' ') (r : Str) :
    squeeze (List.replicate g ' ' ++ c :: r) = (if g = 0 then [] else [' ']) ++ squeeze (c :: r) := by
  induction g with
  | zero => rfl
  | succ g ih =>
    cases g with
    | zero => simp [squeeze, hc]
    | succ g =>
      rw [List.replicate_succ, List.cons_append, squeeze, if_pos ⟨rfl, .inr (by simp [List.replicate_succ])⟩, ih]
      simp

theorem squeeze_blank (g : Nat) : squeeze (List.replicate g ' ') = [] := by
  induction g with
  | zero => rfl
  | succ g ih =>
    rw [List.replicate_succ, squeeze, if_pos, ih]
    refine ⟨rfl, ?_⟩
    cases g with
    | zero => exact .inl rfl
    | succ g => exact .inr rfl

theorem squeeze_ink {u : Str} (h : ∀ c ∈ u, c ≠ ' ') (v : Str) : squeeze (u ++ v) = u ++ squeeze v := by
  induction u with
  | nil => rfl
  | cons c u ih =>
    rw [List.cons_append, squeeze, if_neg (fun hc => h c (by simp) hc.1), ih (fun d hd => h d (by simp [hd]))]
    rfl

theorem squeeze_word (g : Nat) {w : Str} (h : ∀ c ∈ w, c ≠ ' ') (hne : w ≠ []) (v : Str) :
    squeeze (List.replicate g ' ' ++ (w ++ v)) = (if g = 0 then [] else [' ']) ++ (w ++ squeeze v) := by
  cases w with
  | nil => exact absurd rfl hne
  | cons c w =>
    rw [← squeeze_ink h v, List.cons_append, squeeze_replicate g (h c (by simp))]

theorem joined_scan (l : Str) : ∀ (g : Nat) (w : Str), (∀ c ∈ w, c ≠ ' ') →
    joined (scan g w l) = squeeze (List.replicate g ' ' ++ (w.reverse ++ oneLine l)) := by
  induction l with
  | nil =>
    intro g w hw
    rw [scan, oneLine, List.map_nil]
    split
    · rename_i h
      subst h
      simp [joined, squeeze_blank]
    · rename_i h
      rw [joined_cons, squeeze_word g (by simpa using hw) (by simpa using h)]
      rfl
  | cons c l ih =>
    intro g w hw
    rw [scan]
    have ho : oneLine (c :: l) = (if c = '\n' then ' ' else c) :: oneLine l := rfl
    split
    · rename_i hn
      obtain ⟨f1, f2, _⟩ := nameChar_facts hn
      rw [ih g (c :: w) (by simpa [f1] using hw), ho, if_neg f2]
      simp
    · rename_i hn
      split
      · rename_i hb
        have hc : (if c = '\n' then ' ' else c) = ' ' := by
          simp only [blankChar, Bool.or_eq_true, beq_iff_eq] at hb
          rcases hb with rfl | rfl <;> rfl
        rw [ho, hc]
        split
        · rename_i h
          subst h
          rw [ih (g + 1) [] (by simp)]
          rw [List.replicate_succ', List.append_assoc]
          rfl
        · rename_i h
          rw [joined_cons, ih 1 [] (by simp), squeeze_word g (by simpa using hw) (by simpa using h)]
          rfl
      · rename_i hb
        have hc : c ≠ ' ' ∧ c ≠ '\n' := by
          simp only [blankChar, Bool.or_eq_true, beq_iff_eq, not_or] at hb
          exact hb
        have hs : squeeze (c :: oneLine l) = c :: squeeze (oneLine l) := by
          rw [squeeze, if_neg (fun h => hc.1 h.1)]
        rw [ho, if_neg hc.2]
        split
        · rename_i h
          subst h
          rw [joined_cons, ih 0 [] (by simp)]
          exact (squeeze_word g (w := [c]) (by simpa using hc.1) (by simp) _).symm
        · rename_i h
          rw [joined_cons, joined_cons, ih 0 [] (by simp), squeeze_word g (by simpa using hw) (by simpa using h), hs]
          rfl

theorem scan_inked (l : Str) : ∀ (g : Nat) (w : Str), ∀ p ∈ scan g w l, p.2 ≠ [] := by
  induction l with
  | nil =>
    intro g w p hp
    rw [scan] at hp
    split at hp
    · simp at hp
    · rename_i h
      simp only [List.mem_singleton] at hp
      subst hp
      simpa using h
  | cons c l ih =>
    intro g w p hp
    rw [scan] at hp
    split at hp
    · exact ih _ _ p hp
    · split at hp
      · split at hp
        · exact ih _ _ p hp
        · rename_i h
          rcases List.mem_cons.1 hp with rfl | hp
          · simpa using h
          · exact ih _ _ p hp
      · split at hp
        · rcases List.mem_cons.1 hp with rfl | hp
          · simp
          · exact ih _ _ p hp
        · rename_i h
          rcases List.mem_cons.1 hp with rfl | hp
          · simpa using h
          · rcases List.mem_cons.1 hp with rfl | hp
            · simp
            · exact ih _ _ p hp

theorem scan_word (l : Str) : ∀ (g : Nat) (w : Str), w ≠ [] → ∃ s r, scan g w l = (g, s) :: r := by
  induction l with
  | nil => intro g w h; exact ⟨_, _, by rw [scan, if_neg h]⟩
  | cons c l ih =>
    intro g w h
    by_cases hn : nameChar c = true
    · rw [scan, if_pos hn]
      exact ih g (c :: w) (by simp)
    · by_cases hb : blankChar c = true
      · exact ⟨_, _, by rw [scan, if_neg hn, if_pos hb, if_neg h]⟩
      · exact ⟨_, _, by rw [scan, if_neg hn, if_neg hb, if_neg h]⟩

theorem scan_spaces (k : Nat) (l : Str) : ∀ g, scan g [] (List.replicate k ' ' ++ l) = scan (g + k) [] l := by
  induction k with
  | zero => intro g; rfl
  | succ k ih =>
    intro g
    rw [List.replicate_succ, List.cons_append, scan, if_neg (by decide), if_pos (by decide), if_pos rfl, ih]
    congr 1
    omega

/-- The first token is where the first character is that is no blank. -/
theorem scan_first (g : Nat) {c : Char} (hc : blankChar c = false) (l : Str) :
    ∃ s r, scan g [] (c :: l) = (g, s) :: r := by
  rw [scan]
  split
  · exact scan_word l g [c] (by simp)
  · rw [if_neg (by simp [hc]), if_pos rfl]
    exact ⟨_, _, rfl⟩

/-! ## Lines -/

theorem oneLine_id {l : Str} (h : '\n' ∉ l) : oneLine l = l := by
  induction l with
  | nil => rfl
  | cons c l ih =>
    simp only [List.mem_cons, not_or] at h
    have e : oneLine (c :: l) = (if c = '\n' then ' ' else c) :: oneLine l := rfl
    rw [e, ih h.2, if_neg (fun e => h.1 e.symm)]

theorem split_line (l : Str) : l = List.replicate (columnOf l) ' ' ++ l.dropWhile (· == ' ') := by
  conv => lhs; rw [← List.takeWhile_append_dropWhile (p := (· == ' ')) (l := l)]
  congr 1
  refine List.eq_replicate_of_mem (fun c hc => ?_)
  simpa using List.mem_takeWhile_imp hc

theorem blank_iff (l : Str) : blank l = true ↔ l.dropWhile (· == ' ') = [] := by
  rw [List.dropWhile_eq_nil_iff, blank, List.all_eq_true]

/-- A line without a line break: it is blank, or it has a first token. -/
theorem scan_line (l : Str) (h : '\n' ∉ l) :
    (blank l = true ∧ scan 0 [] l = []) ∨
    (blank l = false ∧ ∃ s r, scan 0 [] l = (columnOf l, s) :: r ∧ s ++ joined r = tidy l ∧ s ≠ [] ∧
      ∀ p ∈ r, p.2 ≠ []) := by
  have hs := split_line l
  cases hd : l.dropWhile (· == ' ') with
  | nil =>
    left
    refine ⟨(blank_iff l).2 hd, ?_⟩
    rw [hd] at hs
    rw [hs, scan_spaces]
    rfl
  | cons c r =>
    right
    have hb : blank l = false := by
      cases hb : blank l with
      | false => rfl
      | true => rw [(blank_iff l).1 hb] at hd; cases hd
    have hc : c ≠ ' ' := by
      have := List.head_dropWhile_not (p := (· == ' ')) (l := l) (by rw [hd]; simp)
      simp only [hd, List.head_cons] at this
      simpa using this
    rw [hd] at hs
    have hcn : c ≠ '\n' := by
      rintro rfl
      exact h (by rw [hs]; simp)
    have hrn : '\n' ∉ c :: r := fun hm => h (by rw [hs]; exact List.mem_append_right _ hm)
    obtain ⟨s, t, e⟩ := scan_first (columnOf l) (c := c) (by simp [blankChar, hc, hcn]) r
    have e' : scan 0 [] l = (columnOf l, s) :: t := by
      conv => lhs; rw [hs]
      rw [scan_spaces, Nat.zero_add, e]
    have hi := scan_inked l 0 []
    rw [e'] at hi
    refine ⟨hb, s, t, e', ?_, hi (columnOf l, s) (by simp), fun p hp => hi p (by simp [hp])⟩
    have hj := joined_scan (c :: r) (columnOf l) [] (by simp)
    have ho : oneLine (c :: r) = c :: r := by
      exact oneLine_id hrn
    rw [e, joined_cons, ho, List.reverse_nil, List.nil_append, squeeze_replicate _ hc] at hj
    rw [tidy, hd]
    exact List.append_cancel_left hj

end Genco.Proofs.TextFile
