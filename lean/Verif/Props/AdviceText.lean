import Verif.Props.Advice
import Verif.Props.Text

/-!
# Layout errors of text
-/

set_option autoImplicit false

namespace Genco.Props

open Genco Macro Spec.Text Spec.MacroFile Proofs.TextFile Spec.Advice

variable {ι : Type}

/-- The columns of the lines that are not blank. -/
def inkColumns (ls : List Str) : List Nat := (ls.filter (fun l => !blank l)).map columnOf

theorem allowed_cons (past : List Nat) (l : Str) (ls : List Str) : allowed past (l :: ls) = true ↔
    (blank l = false → Fits (columnOf l) past) ∧ allowed ((inkColumns [l]).reverse ++ past) ls = true := by
  cases hb : blank l <;> cases past <;> simp [allowed, hb, Fits, inkColumns]

theorem allowed_append (a b : List Str) : ∀ past, allowed past (a ++ b) = true ↔
    allowed past a = true ∧ allowed ((inkColumns a).reverse ++ past) b = true := by
  induction a with
  | nil => intro past; simp [allowed, inkColumns]
  | cons l a ih =>
    intro past
    rw [List.cons_append, allowed_cons, allowed_cons, ih]
    have : (inkColumns (l :: a)).reverse = (inkColumns a).reverse ++ (inkColumns [l]).reverse := by
      cases hb : blank l <;> simp [inkColumns, hb]
    rw [this, List.append_assoc, and_assoc]

theorem not_allowed (ls : List Str) : ∀ past, allowed past ls = false → ∃ a l b, ls = a ++ l :: b ∧
    allowed past a = true ∧ blank l = false ∧ ¬ Fits (columnOf l) ((inkColumns a).reverse ++ past) := by
  induction ls with
  | nil => intro past h; cases h
  | cons l ls ih =>
    intro past h
    by_cases h1 : blank l = false ∧ ¬ Fits (columnOf l) past
    · exact ⟨[], l, ls, rfl, rfl, h1.1, by simpa [inkColumns] using h1.2⟩
    have h1' : blank l = false → Fits (columnOf l) past := fun hb => by
      by_contra hc; exact h1 ⟨hb, hc⟩
    have h2 : allowed ((inkColumns [l]).reverse ++ past) ls = false := by
      cases h3 : allowed ((inkColumns [l]).reverse ++ past) ls with
      | false => rfl
      | true => rw [(allowed_cons past l ls).2 ⟨h1', h3⟩] at h; cases h
    obtain ⟨a, m, b, rfl, k1, k2, k3⟩ := ih _ h2
    refine ⟨l :: a, m, b, rfl, (allowed_cons _ _ _).2 ⟨h1', k1⟩, k2, ?_⟩
    have : (inkColumns (l :: a)).reverse = (inkColumns a).reverse ++ (inkColumns [l]).reverse := by
      cases hb : blank l <;> simp [inkColumns, hb]
    rw [this, List.append_assoc]
    exact k3

theorem srcs_columns (ls : List Str) (h : ∀ l ∈ ls, '\n' ∉ l) : ∀ g, (srcs g ls).map (·.column) = inkColumns ls := by
  induction ls with
  | nil => intro g; rfl
  | cons l ls ih =>
    intro g
    have ih' := ih (fun m hm => h m (by simp [hm]))
    rcases scan_line l (h l (by simp)) with ⟨hb, hs⟩ | ⟨hb, s, r, hs, -⟩
    · simp [srcs, hs, ih', inkColumns, hb]
    · simp [srcs, hs, ih', inkColumns, hb]

theorem srcs_split (a : List Str) (l : Str) (b : List Str) (h : ∀ m ∈ a ++ l :: b, '\n' ∉ m) (hb : blank l = false) :
    ∀ g, ∃ d bs, srcs g (a ++ l :: b) = srcs g a ++ d :: bs ∧ d.column = columnOf l := by
  induction a with
  | nil =>
    intro g
    rcases scan_line l (h l (by simp)) with ⟨hb', hs⟩ | ⟨-, s, r, hs, -⟩
    · rw [hb] at hb'; cases hb'
    · exact ⟨⟨g, columnOf l, s, r⟩, srcs 0 b, by simp [srcs, hs], rfl⟩
  | cons m a ih =>
    intro g
    have ih' := ih (fun x hx => h x (by simp at hx ⊢; exact .inr hx))
    rcases scan_line m (h m (by simp)) with ⟨-, hs⟩ | ⟨-, s, r, hs, -⟩
    · obtain ⟨d, bs, k1, k2⟩ := ih' (g + 1)
      exact ⟨d, bs, by simp [srcs, hs, k1], k2⟩
    · obtain ⟨d, bs, k1, k2⟩ := ih' 0
      exact ⟨d, bs, by simp [srcs, hs, k1], k2⟩

theorem srcs_keeps (ls : List Str) (h : ∀ l ∈ ls, '\n' ∉ l) : ∀ (g : Nat) (past : List Nat),
    KeepsTo past (srcs g ls) ↔ allowed past ls = true := by
  induction ls with
  | nil => intro g past; simp [srcs, KeepsTo, allowed]
  | cons l ls ih =>
    intro g past
    have ih' := ih (fun m hm => h m (by simp [hm]))
    rw [allowed_cons]
    rcases scan_line l (h l (by simp)) with ⟨hb, hs⟩ | ⟨hb, s, r, hs, -⟩
    · simp [srcs, hs, ih', hb, inkColumns]
    · simp [srcs, hs, KeepsTo, ih', hb, inkColumns]

/-- The line moved to another column. -/
def movedTo (c : Nat) (l : Str) : Str := List.replicate c ' ' ++ l.dropWhile (· == ' ')

theorem moved_column (c : Nat) (l : Str) (h : blank l = false) :
    columnOf (movedTo c l) = c ∧ blank (movedTo c l) = false := by
  have hd : ∃ x r, l.dropWhile (· == ' ') = x :: r ∧ (x == ' ') = false := by
    induction l with
    | nil => cases h
    | cons y l ih =>
      by_cases hy : (y == ' ') = true
      · rw [List.dropWhile_cons, if_pos hy]
        refine ih ?_
        simp only [blank, List.all_cons, hy, Bool.true_and] at h
        exact h
      · rw [List.dropWhile_cons, if_neg hy]
        exact ⟨y, l, rfl, by simpa using hy⟩
  obtain ⟨x, r, hx, hx'⟩ := hd
  unfold movedTo
  rw [hx]
  constructor
  · unfold columnOf
    induction c with
    | zero => simp [hx']
    | succ c ih => rw [List.replicate_succ, List.cons_append, List.takeWhile_cons_of_pos (by decide), List.length_cons, ih]
  · simp [blank, hx']

/-- C101. The same for text: where text is refused, the message says how many spaces more or less there
have to be in front of the first line that is refused. With these the text is accepted up to that line. -/
theorem C101_text (S : Syn) (line k off : Nat) (ls : List Str) (hl : ∀ l ∈ ls, '\n' ∉ l)
    (hp : Plain (Macro.textOf ls)) (hn : nested [] (Macro.textOf ls) = true) (ho : allowed [] (pad k ls) = false) :
    ∃ ts ns e m a l b c, lex .nightly ⟨line, k, off⟩ (Macro.textOf ls) = some ts ∧ Parses S ts ns ∧
      Macro.quote (ι := ι) none ns = .error e ∧ e.message = some m ∧ ls = a ++ l :: b ∧ a ≠ [] ∧
      blank l = false ∧ allowed [] (pad k a) = true ∧ allowed [] (pad k (a ++ [l])) = false ∧
      Moves m (columnOf l) c ∧ allowed [] (pad k (a ++ [movedTo c l])) = true := by
  obtain ⟨ts, h1, h2, h3⟩ := (lex_plain .nightly ⟨line, k, off⟩ hp).1 hn
  have hm := means_doubled S (fun c => c.start) ts
  rw [doubled_plain _ ts h3] at hm
  have hq : Macro.quote (ι := ι) none (wrapped ts) = Macro.quote none (spelled ts) := by
    unfold Macro.quote
    rw [nodes_wrapped]
  cases ls with
  | nil => cases ho
  | cons l0 ls =>
    rw [toks_lines ls l0 line k off line 0 rfl (fun m hm => ⟨all_textOf (hole_of_plain hp.chars) m hm, hl m hm⟩)] at h2
    have hl' : ∀ m ∈ pad k (l0 :: ls), '\n' ∉ m := by
      intro m hm
      rcases List.mem_cons.1 hm with rfl | hm
      · simp [hl l0 (by simp)]
      · exact hl m (by simp [hm])
    obtain ⟨a', l, b, hs, k1, k2, k3⟩ := not_allowed _ _ ho
    rw [List.append_nil] at k3
    obtain ⟨a0, rfl, hls⟩ : ∃ a0, a' = (List.replicate k ' ' ++ l0) :: a0 ∧ ls = a0 ++ l :: b := by
      cases a' with
      | nil => exact absurd trivial k3
      | cons x a0 =>
        rw [pad, List.cons_append] at hs
        obtain ⟨h4, h5⟩ := List.cons.inj hs
        exact ⟨a0, by rw [h4], h5⟩
    have ha : ∀ m ∈ (List.replicate k ' ' ++ l0) :: a0, '\n' ∉ m := fun m hm => hl' m (by rw [hs]; simp at hm ⊢; tauto)
    obtain ⟨d, bs, d1, d2⟩ := srcs_split _ l b (by rw [← hs]; exact hl') k2 0
    rw [← hs, pad] at d1
    rw [d1] at h2
    have fit : ∀ c m, columnOf m = c → blank m = false →
        (allowed [] (pad k ((l0 :: a0) ++ [m])) = true ↔ Fits c (inkColumns ((List.replicate k ' ' ++ l0) :: a0)).reverse) := by
      intro c m hc hb
      rw [show pad k ((l0 :: a0) ++ [m]) = ((List.replicate k ' ' ++ l0) :: a0) ++ [m] from rfl, allowed_append,
        allowed_cons _ m, List.append_nil, hc]
      exact ⟨fun h => h.2.1 hb, fun h => ⟨k1, fun _ => h, by rw [allowed]⟩⟩
    have bad : allowed [] (pad k ((l0 :: a0) ++ [l])) = false := by
      cases hx : allowed [] (pad k ((l0 :: a0) ++ [l])) with
      | false => rfl
      | true => exact absurd ((fit _ l rfl k2).1 hx) k3
    have hd : ¬ Fits d.column ((srcs 0 ((List.replicate k ' ' ++ l0) :: a0)).map (·.column)).reverse := by
      rw [srcs_columns _ ha, d2]; exact k3
    have hk : KeepsTo [] (srcs 0 ((List.replicate k ' ' ++ l0) :: a0)) := (srcs_keeps _ ha 0 []).2 k1
    cases hx : Macro.quote (ι := ι) (E := List TT) none (wrapped ts) with
    | ok o =>
      rw [hq, h2] at hx
      have := (taken_iff (ι := ι) (E := List TT) line _).1 ⟨o.1, o.2, hx⟩
      exact absurd ((keeps_append _ _ []).1 this).2.1 (by rw [List.append_nil]; exact hd)
    | error e =>
      have hx' := hx
      rw [hq, h2] at hx'
      obtain ⟨c, rfl, hne, hf⟩ := lines_error line _ d bs e hx' hk hd
      rw [srcs_columns _ ha] at hf
      obtain ⟨m1, m2⟩ := moved_column c l k2
      exact ⟨ts, wrapped ts, _, _, l0 :: a0, l, b, c, h1, (parses_iff S ts _).2 hm, hx, rfl, by rw [hls]; rfl,
        by simp, k2, k1, bad, by rw [← d2]; exact message_moves _ _ hne, (fit c _ m1 m2).2 hf⟩

example : allowed [] (pad 4 ["a {".toList, "        b".toList, "      c".toList, "    }".toList]) = false := by decide

example : Plain (Macro.textOf ["a {".toList, "        b".toList, "      c".toList, "    }".toList]) ∧
    nested [] (Macro.textOf ["a {".toList, "        b".toList, "      c".toList, "    }".toList]) = true := by decide

example : movedTo 4 "      c".toList = "    c".toList := by decide

end Genco.Props
