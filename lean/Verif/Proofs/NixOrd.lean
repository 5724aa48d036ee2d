import Verif.Model.Nix
import Verif.Proofs.Btree

/-!
# The derived order of Nix imports

`Nix.encTokens` reads a stream off as numbers. Different streams give different
numbers, so the order is total, and it is the lexicographic order of the items
and then of the position of the last language item.
-/

set_option autoImplicit false

namespace Genco.Nix

open Std

variable {α β : Type}

/-- No code is the beginning of another code. -/
def PFat (enc : α → List Int) (a : α) : Prop := ∀ b x y, enc a ++ x = enc b ++ y → a = b ∧ x = y

theorem pf_str (s : Str) : PFat encStr s := by
  intro t x y h
  induction s generalizing t with
  | nil =>
    cases t with
    | nil => simpa [encStr] using h
    | cons c t =>
      simp only [encStr, List.map_nil, List.nil_append, List.map_cons, List.cons_append, List.cons.injEq] at h
      omega
  | cons d s ih =>
    cases t with
    | nil =>
      simp only [encStr, List.map_nil, List.nil_append, List.map_cons, List.cons_append, List.cons.injEq] at h
      omega
    | cons c t =>
      simp only [encStr, List.map_cons, List.cons_append, List.cons.injEq] at h ih
      obtain ⟨h1, h2⟩ := h
      obtain ⟨rfl, h3⟩ := ih t h2
      have : d = c := Char.toNat_inj.1 (by omega)
      exact ⟨by rw [this], h3⟩

theorem pf_itemStr (s : ItemStr) : PFat encItemStr s := by
  intro t x y h
  cases s <;> cases t <;> simp only [encItemStr, List.cons_append, List.cons.injEq, true_and] at h
  · replace h := pf_str _ _ _ _ h; obtain ⟨rfl, h⟩ := h; exact ⟨rfl, h⟩
  · exact absurd h.1 (by decide)
  · exact absurd h.1 (by decide)
  · replace h := pf_str _ _ _ _ h; obtain ⟨rfl, h⟩ := h; exact ⟨rfl, h⟩

theorem encRev_eq (rev : List (Item Import)) :
    encRev rev = rev.reverse.flatMap (fun i => 1 :: encItem i) := by
  induction rev with
  | nil => rfl
  | cons i r ih => simp [encRev, ih]

theorem pf_list (l : List (Item Import)) (hl : ∀ i ∈ l, PFat encItem i) (m : List (Item Import))
    (x y : List Int) (h : l.flatMap (fun i => 1 :: encItem i) ++ 0 :: x =
      m.flatMap (fun i => 1 :: encItem i) ++ 0 :: y) : l = m ∧ x = y := by
  induction l generalizing m with
  | nil =>
    cases m with
    | nil => simpa using h
    | cons j m => exact absurd (List.cons.inj h).1 (by decide)
  | cons i l ih =>
    cases m with
    | nil => exact absurd (List.cons.inj h).1 (by decide)
    | cons j m =>
      simp only [List.flatMap_cons, List.cons_append, List.append_assoc, List.cons.injEq, true_and] at h
      replace h := hl i (by simp) _ _ _ h; obtain ⟨rfl, h⟩ := h
      replace h := ih (fun x hx => hl x (by simp [hx])) m h; obtain ⟨rfl, h⟩ := h
      exact ⟨rfl, h⟩

mutual
theorem pf_import : (i : Import) → PFat Import.enc i
  | .argument n => by
    intro b x y h
    cases b <;> simp only [Import.enc, List.cons_append, List.append_assoc, List.cons.injEq, true_and] at h
    · replace h := pf_itemStr _ _ _ _ h; obtain ⟨rfl, h⟩ := h; exact ⟨rfl, h⟩
    all_goals exact absurd h.1 (by decide)
  | .inherit p n => by
    intro b x y h
    cases b <;> simp only [Import.enc, List.cons_append, List.append_assoc, List.cons.injEq, true_and] at h
    case «inherit» =>
      replace h := pf_itemStr _ _ _ _ h; obtain ⟨rfl, h⟩ := h
      replace h := pf_itemStr _ _ _ _ h; obtain ⟨rfl, h⟩ := h
      exact ⟨rfl, h⟩
    all_goals exact absurd h.1 (by decide)
  | .variable n v => by
    intro b x y h
    cases b <;> simp only [Import.enc, List.cons_append, List.append_assoc, List.cons.injEq, true_and] at h
    case «variable» =>
      replace h := pf_itemStr _ _ _ _ h; obtain ⟨rfl, h⟩ := h
      replace h := pf_tokens v _ _ _ h; obtain ⟨rfl, h⟩ := h
      exact ⟨rfl, h⟩
    all_goals exact absurd h.1 (by decide)
  | .with a n => by
    intro b x y h
    cases b <;> simp only [Import.enc, List.cons_append, List.append_assoc, List.cons.injEq, true_and] at h
    case «with» =>
      replace h := pf_itemStr _ _ _ _ h; obtain ⟨rfl, h⟩ := h
      replace h := pf_itemStr _ _ _ _ h; obtain ⟨rfl, h⟩ := h
      exact ⟨rfl, h⟩
    all_goals exact absurd h.1 (by decide)
theorem pf_tokens : (t : Tokens Import) → PFat encTokens t
  | ⟨rev, last⟩ => by
    have hr := pf_rev rev
    rintro ⟨rev', last'⟩ x y h
    simp only [encTokens, encRev_eq, List.append_assoc, List.cons_append, List.nil_append] at h
    obtain ⟨h1, h2⟩ := pf_list _ (fun i hi => hr i (List.mem_reverse.1 hi)) _ _ _ h
    simp only [List.cons.injEq] at h2
    have h3 : rev = rev' := List.reverse_inj.1 h1
    have h4 : last = last' := by omega
    exact ⟨by rw [h3, h4], h2.2⟩
theorem pf_rev : (rev : List (Item Import)) → ∀ i ∈ rev, PFat encItem i
  | [] => by simp
  | i :: r => by
    have h1 := pf_item i
    have h2 := pf_rev r
    intro j hj
    rcases List.mem_cons.1 hj with rfl | hj
    · exact h1
    · exact h2 j hj
theorem pf_item : (i : Item Import) → PFat encItem i
  | .literal s => by
    intro b x y h
    cases b <;> simp only [encItem, List.cons_append, List.cons.injEq, true_and] at h
    · replace h := pf_itemStr _ _ _ _ h; obtain ⟨rfl, h⟩ := h; exact ⟨rfl, h⟩
    all_goals exact absurd h.1 (by decide)
  | .lang p i => by
    have hi := pf_import i
    intro b x y h
    cases b <;> simp only [encItem, List.cons_append, List.cons.injEq, true_and] at h
    case lang =>
      obtain ⟨h1, h2⟩ := h
      replace h := hi _ _ _ h2; obtain ⟨rfl, h⟩ := h
      have := Int.ofNat.inj h1
      exact ⟨by rw [this], h⟩
    all_goals exact absurd h.1 (by decide)
  | .register p i => by
    have hi := pf_import i
    intro b x y h
    cases b <;> simp only [encItem, List.cons_append, List.cons.injEq, true_and] at h
    case register =>
      obtain ⟨h1, h2⟩ := h
      replace h := hi _ _ _ h2; obtain ⟨rfl, h⟩ := h
      have := Int.ofNat.inj h1
      exact ⟨by rw [this], h⟩
    all_goals exact absurd h.1 (by decide)
  | .push => by
    intro b x y h
    cases b <;> simp only [encItem, List.cons_append, List.nil_append, List.cons.injEq, true_and] at h
    case push => exact ⟨rfl, h⟩
    all_goals exact absurd h.1 (by decide)
  | .line => by
    intro b x y h
    cases b <;> simp only [encItem, List.cons_append, List.nil_append, List.cons.injEq, true_and] at h
    case line => exact ⟨rfl, h⟩
    all_goals exact absurd h.1 (by decide)
  | .space => by
    intro b x y h
    cases b <;> simp only [encItem, List.cons_append, List.nil_append, List.cons.injEq, true_and] at h
    case space => exact ⟨rfl, h⟩
    all_goals exact absurd h.1 (by decide)
  | .indentation n => by
    intro b x y h
    cases b <;> simp only [encItem, List.cons_append, List.nil_append, List.cons.injEq, true_and] at h
    case indentation => obtain ⟨rfl, h⟩ := h; exact ⟨rfl, h⟩
    all_goals exact absurd h.1 (by decide)
  | .openQuote e => by
    intro b x y h
    cases b <;> simp only [encItem, List.cons_append, List.nil_append, List.cons.injEq, true_and] at h
    case openQuote f =>
      obtain ⟨h1, h⟩ := h
      refine ⟨?_, h⟩
      cases e <;> cases f <;> first | rfl | exact absurd h1 (by decide)
    all_goals exact absurd h.1 (by decide)
  | .closeQuote => by
    intro b x y h
    cases b <;> simp only [encItem, List.cons_append, List.nil_append, List.cons.injEq, true_and] at h
    case closeQuote => exact ⟨rfl, h⟩
    all_goals exact absurd h.1 (by decide)
  | .openEval => by
    intro b x y h
    cases b <;> simp only [encItem, List.cons_append, List.nil_append, List.cons.injEq, true_and] at h
    case openEval => exact ⟨rfl, h⟩
    all_goals exact absurd h.1 (by decide)
  | .closeEval => by
    intro b x y h
    cases b <;> simp only [encItem, List.cons_append, List.nil_append, List.cons.injEq, true_and] at h
    case closeEval => exact ⟨rfl, h⟩
    all_goals exact absurd h.1 (by decide)
end

instance : TransOrd (Tokens Import) := transOrd_of_key encTokens (fun _ _ => rfl)

instance : LawfulEqOrd (Tokens Import) :=
  lawfulEqOrd_of_key encTokens (fun a b h => (pf_tokens a b [] [] (by rw [h])).1) (fun _ _ => rfl)

/-! ## It is the lexicographic order -/

instance : Ord Import where
  compare a b := compare a.enc b.enc

instance : Ord (Item Import) where
  compare a b := compare (encItem a) (encItem b)

theorem lex_append (u v x y : List Int) (h : ∀ x y, u ++ x = v ++ y → u = v) :
    compare (u ++ x) (v ++ y) = (compare u v).then (compare x y) := by
  induction u generalizing v with
  | nil =>
    cases v with
    | nil => simp
    | cons c v => exact absurd (h (c :: v) [] (by simp)) (by simp)
  | cons d u ih =>
    cases v with
    | nil => exact absurd (h [] (d :: u) (by simp)) (by simp)
    | cons c v =>
      simp only [List.cons_append, List.compare_cons_cons]
      by_cases e : d = c
      · subst e
        simp only [ReflOrd.compare_self, Ordering.then]
        exact ih v (fun x y hxy => (List.cons.inj (h x y (by simp [hxy]))).2)
      · have : compare d c ≠ .eq := fun h => e (LawfulEqOrd.eq_of_compare h)
        generalize compare d c = o at this
        cases o <;> first | rfl | exact absurd rfl this

theorem lex_pf {enc : α → List Int} (a b : α) (h : PFat enc a) (x y : List Int) :
    compare (enc a ++ x) (enc b ++ y) = (compare (enc a) (enc b)).then (compare x y) :=
  lex_append _ _ _ _ (fun x y e => by rw [(h b x y e).1])

theorem compare_int_nat (a b : Nat) : compare (a : Int) (b : Int) = compare a b := by
  rcases Nat.lt_trichotomy a b with h | h | h
  · rw [Std.compare_eq_lt.2 h, Std.compare_eq_lt.2 (by omega)]
  · rw [h, ReflOrd.compare_self, ReflOrd.compare_self]
  · rw [Std.compare_eq_gt.2 h, Std.compare_eq_gt.2 (by omega)]

theorem compare_char (a b : Char) : compare ((a.toNat : Int) + 1) ((b.toNat : Int) + 1) = compare a b := by
  by_cases h : a < b
  · have : a.toNat < b.toNat := h
    have e : compare a b = .lt := by
      show compareOfLessAndEq a b = _
      simp [compareOfLessAndEq, h]
    rw [e, Std.compare_eq_lt.2 (by omega)]
  · by_cases h' : b < a
    · have : b.toNat < a.toNat := h'
      have hn : a ≠ b := by rintro rfl; omega
      have e : compare a b = .gt := by
        show compareOfLessAndEq a b = _
        simp [compareOfLessAndEq, h, hn]
      rw [e, Std.compare_eq_gt.2 (by omega)]
    · have h1 : ¬ a.toNat < b.toNat := h
      have h2 : ¬ b.toNat < a.toNat := h'
      have : a = b := Char.toNat_inj.1 (by omega)
      rw [this, ReflOrd.compare_self, ReflOrd.compare_self]

theorem compare_str (a b : Str) : compare (encStr a) (encStr b) = compare a b := by
  induction a generalizing b with
  | nil =>
    cases b with
    | nil => rfl
    | cons d b =>
      simp only [encStr, List.map_nil, List.nil_append, List.map_cons, List.cons_append,
        List.compare_cons_cons, List.compare_nil_cons]
      rw [Std.compare_eq_lt.2 (by omega)]
      rfl
  | cons c a ih =>
    cases b with
    | nil =>
      simp only [encStr, List.map_nil, List.nil_append, List.map_cons, List.cons_append,
        List.compare_cons_cons, List.compare_cons_nil]
      rw [Std.compare_eq_gt.2 (by omega)]
      rfl
    | cons d b =>
      simp only [encStr, List.map_cons, List.cons_append, List.compare_cons_cons] at ih ⊢
      rw [compare_char, ih b]

theorem compare_itemStr (a b : ItemStr) : compare (encItemStr a) (encItemStr b) = compare a b := by
  cases a <;> cases b <;> simp only [encItemStr, List.compare_cons_cons, compare_str] <;> rfl

theorem compare_items (l m : List (Item Import)) (x y : List Int) :
    compare (l.flatMap (fun i => 1 :: encItem i) ++ 0 :: x) (m.flatMap (fun i => 1 :: encItem i) ++ 0 :: y) =
      (compare l m).then (compare x y) := by
  induction l generalizing m with
  | nil =>
    cases m with
    | nil => simp [List.compare_cons_cons]
    | cons j m =>
      simp only [List.flatMap_nil, List.nil_append, List.flatMap_cons, List.cons_append,
        List.compare_cons_cons, List.compare_nil_cons]
      rfl
  | cons i l ih =>
    cases m with
    | nil =>
      simp only [List.flatMap_nil, List.nil_append, List.flatMap_cons, List.cons_append,
        List.compare_cons_cons, List.compare_cons_nil]
      rfl
    | cons j m =>
      simp only [List.flatMap_cons, List.cons_append, List.append_assoc, List.compare_cons_cons]
      rw [lex_pf i j (pf_item i), ih m, ReflOrd.compare_self]
      simp only [Ordering.then_assoc]
      rfl

/-- Streams compare by their items, then by the position of the last language
item. -/
theorem compare_tokens (a b : Tokens Import) :
    compare a b = (compare a.items b.items).then (compare a.lastLangItem b.lastLangItem) := by
  obtain ⟨r, n⟩ := a
  obtain ⟨s, m⟩ := b
  show compare (encTokens _) (encTokens _) = _
  simp only [encTokens, encRev_eq, Tokens.items]
  rw [compare_items, List.compare_cons_cons, compare_int_nat]
  simp

/-- The number of the variant. -/
def Import.variant : Import → Nat
  | .argument _ => 0
  | .inherit _ _ => 1
  | .variable _ _ => 2
  | .with _ _ => 3

/-- Imports compare by variant, then by the fields in order. -/
theorem compare_import (a b : Import) : compare a b =
    match a, b with
    | .argument n, .argument n' => compare n n'
    | .inherit p n, .inherit p' n' => (compare p p').then (compare n n')
    | .variable n v, .variable n' v' => (compare n n').then (compare v v')
    | .with p n, .with p' n' => (compare p p').then (compare n n')
    | a, b => compare a.variant b.variant := by
  show compare a.enc b.enc = _
  cases a <;> cases b <;> simp only [Import.enc, List.compare_cons_cons]
  case argument.argument => rw [compare_itemStr]; simp
  case inherit.inherit => rw [lex_pf _ _ (pf_itemStr _), compare_itemStr, compare_itemStr]; simp
  case variable.variable =>
    rw [lex_pf _ _ (pf_itemStr _), compare_itemStr, ReflOrd.compare_self]; rfl
  case with.with => rw [lex_pf _ _ (pf_itemStr _), compare_itemStr, compare_itemStr]; simp
  all_goals rfl

/-- The number of the variant. -/
def itemVariant : Item Import → Nat
  | .literal _ => 0
  | .lang _ _ => 1
  | .register _ _ => 2
  | .push => 3
  | .line => 4
  | .space => 5
  | .indentation _ => 6
  | .openQuote _ => 7
  | .closeQuote => 8
  | .openEval => 9
  | .closeEval => 10

/-- Items compare by variant, then by the fields in order. -/
theorem compare_item (a b : Item Import) : compare a b =
    match a, b with
    | .literal s, .literal t => compare s t
    | .lang p i, .lang q j => (compare p q).then (compare i j)
    | .register p i, .register q j => (compare p q).then (compare i j)
    | .indentation n, .indentation m => compare n m
    | .openQuote e, .openQuote f => compare e f
    | a, b => compare (itemVariant a) (itemVariant b) := by
  show compare (encItem a) (encItem b) = _
  cases a <;> cases b <;> simp only [encItem, List.compare_cons_cons]
  case literal.literal => rw [compare_itemStr]; simp
  case lang.lang => rw [compare_int_nat, ReflOrd.compare_self]; rfl
  case register.register => rw [compare_int_nat, ReflOrd.compare_self]; rfl
  case indentation.indentation => simp
  case openQuote.openQuote e f => cases e <;> cases f <;> rfl
  all_goals rfl

end Genco.Nix
