import Verif.Proofs.I16
import Verif.Props.Writers
import Mathlib.Data.List.Infix

/-!
# Properties of the 16-bit counters (C08)
-/

set_option autoImplicit false

namespace Genco.Props

open Genco Spec

variable {ι σ : Type}

/-- An `i16` has 16 bits in two's complement: the range of the counters, stated on its own. -/
def fits16 (n : Int) : Bool := decide (-2 ^ 15 ≤ n ∧ n < 2 ^ 15)

theorem fits16_eq : fits16 = inI16 := by
  funext n
  rw [Bool.eq_iff_iff]
  simp only [fits16, inI16, Bool.and_eq_true, decide_eq_true_eq]
  omega

/-- Number of indentation steps asked for by a history: one per `indent` or
`unindent` call, and the size of every indentation item handed over. -/
def indentSteps (cs : List (Call ι)) : Nat :=
  ((cs.flatMap callItems).map (fun i => (indOf i).natAbs)).sum

/-- C08. With at most 32767 indentation steps neither building the stream nor
formatting it overflows a 16-bit counter, and both give what the model with
unbounded counters gives. -/
theorem C08_no_overflow (cs : List (Call ι)) (h : indentSteps cs ≤ 32767) :
    historyC cs = some (history cs) ∧
    ∀ (L : Lang ι) (cfg : Config) (σ : Type) (W : Writer σ) (o : σ),
      formatItemsC L cfg W (history cs).items (Fmt.new o) =
        some (formatItems L cfg W (history cs).items (Fmt.new o)) := by
  have hb := historyC_eq cs h
  refine ⟨hb.1, fun L cfg σ W o => formatItemsC_eq L cfg W _ _ ?_⟩
  have : weight (history cs).items = weight (history cs).rev := weight_reverse _
  have h' : weight (cs.flatMap callItems) ≤ 32767 := h
  simp only [Fmt.new]
  rw [this]
  have := hb.2
  simp
  omega

example : indentSteps (ι := Nat) [.indent, .append (.indentation (-7)), .push, .unindent] = 9 := by
  decide

/-- The indentation reached after each item of a list, counted from the last item
that is not white space. -/
def reached : Int → List (Item ι) → List Int
  | _, [] => []
  | n, i :: r =>
    let m := if isWs i then n + indOf i else 0
    m :: reached m r

/-- C08. Exactly when building overflows: a history goes through, with the result
of the model with unbounded counters, if the indentation of every stretch of white
space stays within 16 bits after each of its items, whichever calls the items come
from. Otherwise it overflows. -/
theorem C08_exact (cs : List (Call ι))
    (h : ∀ i ∈ cs.flatMap callItems, fits16 (indOf i) = true) :
    historyC cs =
      if (reached 0 (cs.flatMap callItems)).all fits16 then some (history cs) else none := by
  rw [fits16_eq] at h ⊢
  rw [historyC_extendC, Tokens.history_eq]
  have key : ∀ (l : List (Item ι)) (t : Tokens ι), Tokens.nfRev t.rev →
      inI16 (trail t.rev) = true → (∀ i ∈ l, inI16 (indOf i) = true) →
      t.extendC l = if (reached (trail t.rev) l).all inI16 then some (t.extend l) else none := by
    intro l
    induction l with
    | nil => intro t _ _ _; rfl
    | cons i l ih =>
      intro t ht h0 hl
      have h1 := Tokens.itemC_exact t i ht h0 (hl i (by simp))
      have hs := Tokens.trail_item t i
      simp only [reached, List.all_cons, ← hs, Tokens.extendC, List.foldlM_cons, h1]
      by_cases hi : inI16 (trail (t.item i).rev) = true
      · have := ih (t.item i) (Tokens.nfRev_item i ht) hi (fun j hj => hl j (by simp [hj]))
        simp only [hi, if_true, Bool.true_and, Option.bind_eq_bind, Option.bind_some]
        exact this
      · simp [hi]
  exact key _ Tokens.new trivial rfl h

/- Interpolating a stream counts as appending its items. -/
example : historyC (ι := Nat) [.indent, .stream [.push, .indentation 32767]] = none ∧
    historyC (ι := Nat) [.indent, .stream [lit "a", .indentation 32767]] =
      some (history [.indent, .stream [lit "a", .indentation 32767]]) ∧
    reached 0 ([.indent, .stream [lit "a", .push, .indentation 32767], .unindent].flatMap
      (callItems (ι := Nat))) = [1, 0, 0, 32767, 32766] := by
  refine ⟨?_, ?_, by decide⟩
  · rw [C08_exact _ (by decide)]; rfl
  · rw [C08_exact _ (by decide)]; rfl

theorem run_indents (n : Nat) (h : n ≤ 32767) :
    historyC (ι := ι) (List.replicate n .indent) =
      some ⟨if n = 0 then [] else [.indentation n], 0⟩ := by
  induction n with
  | zero => rfl
  | succ n ih =>
    have ih := ih (by omega)
    unfold historyC at ih ⊢
    rw [List.replicate_succ', List.foldlM_append, ih]
    simp only [Option.bind_eq_bind, Option.bind_some, List.foldlM_cons, List.foldlM_nil]
    by_cases hn : n = 0
    · subst hn; rfl
    · have hi : inI16 (1 + (n : Int)) = true := by simp [inI16]; omega
      have hnz : (1 + (n : Int)) ≠ 0 := by omega
      simp only [hn, if_false, Call.runC, Tokens.indentationC, Tokens.indentationRevC, addI16, hi,
        if_true, Option.bind_some, Option.map_some]
      have hnz' : (n : Int) + 1 ≠ 0 := by omega
      simp [Int.add_comm, hnz']

/-- C08. The bound is sharp: 32767 indents in a row are fine, one more overflows. -/
theorem C08_overflow :
    (historyC (ι := ι) (List.replicate 32767 .indent)).isSome = true ∧
    historyC (ι := ι) (List.replicate 32768 .indent) = none := by
  refine ⟨by rw [run_indents _ (Nat.le_refl _)]; rfl, ?_⟩
  rw [show (32768 : Nat) = 32767 + 1 from rfl, List.replicate_succ']
  unfold historyC
  rw [List.foldlM_append]
  have := run_indents (ι := ι) 32767 (Nat.le_refl _)
  unfold historyC at this
  rw [this]
  rfl

/-- C08. The range has one step more to the left: 32768 steps out are fine, one more overflows. -/
theorem C08_underflow :
    historyC (ι := ι) (List.replicate 32768 .unindent) = some ⟨[.indentation (-32768)], 0⟩ ∧
    historyC (ι := ι) (List.replicate 32769 .unindent) = none := by
  have run : ∀ n : Nat, n ≤ 32768 → historyC (ι := ι) (List.replicate n .unindent) =
      some ⟨if n = 0 then [] else [.indentation (-(n : Int))], 0⟩ := by
    intro n
    induction n with
    | zero => exact fun _ => rfl
    | succ n ih =>
      intro h
      have ih := ih (by omega)
      unfold historyC at ih ⊢
      rw [List.replicate_succ', List.foldlM_append, ih]
      simp only [Option.bind_eq_bind, Option.bind_some, List.foldlM_cons, List.foldlM_nil]
      by_cases hn : n = 0
      · subst hn; rfl
      · have hi : inI16 (-1 + -(n : Int)) = true := by simp [inI16]; omega
        have hnz : -1 + -(n : Int) ≠ 0 := by omega
        simp only [hn, if_false, Call.runC, Tokens.indentationC, Tokens.indentationRevC, addI16, hi,
          if_true, Option.bind_some, Option.map_some]
        rw [if_pos hnz, if_neg (by omega), show -1 + -(n : Int) = -((n + 1 : Nat) : Int) by omega]
        rfl
  refine ⟨run _ (Nat.le_refl _), ?_⟩
  rw [show (32769 : Nat) = 32768 + 1 from rfl, List.replicate_succ']
  have := run 32768 (Nat.le_refl _)
  unfold historyC at this ⊢
  rw [List.foldlM_append, this]
  rfl

/-- The sum of the indentation of the first items, for each number of items. -/
def levels (items : List (Item ι)) : List Int :=
  items.inits.map (fun l => (l.map indOf).sum)

theorem totals_all (n : Int) (items : List (Item ι)) (hn : inI16 n = true) :
    (totals n items).all inI16 =
      (items.inits.map (fun l => n + (l.map indOf).sum)).all inI16 := by
  induction items generalizing n with
  | nil => simp [totals, hn]
  | cons i items ih =>
    simp only [totals, List.all_cons, List.inits, List.map_cons, List.map_nil, List.sum_nil,
      Int.add_zero, hn, Bool.true_and, List.map_map]
    by_cases hi : inI16 (n + indOf i) = true
    · rw [hi, ih _ hi, Bool.true_and]
      congr 2
      funext l
      simp [Int.add_assoc]
    · have : inI16 (n + indOf i) = false := by simpa using hi
      rw [this, Bool.false_and]
      symm
      rw [List.all_eq_false]
      refine ⟨n + indOf i, ?_, hi⟩
      simp only [List.mem_map, List.mem_inits]
      exact ⟨[], by simp, by simp⟩

/-- C08. Exactly when formatting items without quoting overflows: if the
indentation of some number of first items, added up, is outside of 16 bits. -/
theorem C08_format_exact (L : Lang ι) (cfg : Config) (items : List (Item ι))
    (hp : ∀ i ∈ items, isPlain i = true) (o : Str) :
    formatItemsC L cfg stringWriter items (Fmt.new o) =
      if (levels items).all fits16 then some (formatItems L cfg stringWriter items (Fmt.new o))
      else none := by
  rw [fits16_eq]
  have h : (totals 0 items).all inI16 = (levels items).all inI16 := by
    rw [totals_all 0 items rfl]
    simp only [Int.zero_add, levels]
  rw [formatItemsC_exact L cfg items hp o, h]

example : levels (ι := Nat) [.indentation 32767, lit "a", .indentation (-7), .push, .indentation 8] =
    [0, 32767, 32767, 32760, 32760, 32768] := by decide

/-- C08. The formatter's own counter overflows at the same size, even where no
single indentation item does: here an (empty) text keeps the items apart. -/
theorem C08_formatter_overflow :
    formatItemsC plain cfg2 stringWriter [.indentation 32767, lit "", .indentation 1] (Fmt.new []) =
      none := by
  rfl

end Genco.Props
