import Verif.Model.Usize
import Verif.Proofs.I16
import Verif.Proofs.Layout
import Verif.Proofs.Gaps
import Verif.Proofs.Register

/-!
# Counters of type `usize`: proofs
-/

set_option autoImplicit false

namespace Genco

variable {ι σ : Type}

/-- Arithmetic that is exact up to `K`. -/
def Agrees (A : Arith) (K : Nat) : Prop :=
  (∀ a b, a + b ≤ K → A.add a b = some (a + b)) ∧ ∀ a b, a * b ≤ K → A.mul a b = some (a * b)

theorem agrees_checked (M : Nat) : Agrees (Arith.checked M) M :=
  ⟨fun _ _ h => if_pos h, fun _ _ h => if_pos h⟩

theorem agrees_wrapping (M : Nat) : Agrees (Arith.wrapping M) M :=
  ⟨fun a b h => congrArg some (Nat.mod_eq_of_lt (by omega)),
    fun a b h => congrArg some (Nat.mod_eq_of_lt (Nat.lt_succ_of_le h))⟩

/-- Spaces for one level. -/
def Config.unit (cfg : Config) : Nat :=
  match cfg.indentation with
  | .space n => n
  | .tab => 0

theorem flushA_eq {A : Arith} {K : Nat} (hA : Agrees A K) (W : Writer σ) (cfg : Config) (f : Fmt σ)
    (h : f.spaces + f.indent.natAbs * cfg.unit ≤ K) :
    f.flushWhitespaceA A W cfg = some (f.flushWhitespace W cfg) := by
  unfold Fmt.flushWhitespaceA Fmt.flushWhitespace
  cases hl : f.line.intoIndent with
  | none => simp only [hl]
  | some lines =>
    simp only [hl]
    cases hw : writeLines W cfg lines f.out with
    | error o => simp only [Fmt.lift, bind, Except.bind]
    | ok o =>
      simp only [bind, Except.bind]
      cases hc : cfg.indentation with
      | tab => simp only
      | space n =>
        simp only [Config.unit, hc] at h
        have hl : (max f.indent 0).toNat ≤ f.indent.natAbs := by omega
        have hm := Nat.mul_le_mul_right n hl
        simp only [hA.2 (max f.indent 0).toNat n (by omega), Option.bind_some, hA.1 f.spaces ((max f.indent 0).toNat * n) (by omega),
          Option.map_some]

theorem writeStrA_eq {A : Arith} {K : Nat} (hA : Agrees A K) (W : Writer σ) (cfg : Config) (f : Fmt σ) (s : Str)
    (h : f.spaces + f.indent.natAbs * cfg.unit ≤ K) :
    f.writeStrA A W cfg s = some (f.writeStr W cfg s) := by
  unfold Fmt.writeStrA Fmt.writeStr
  split
  · rw [flushA_eq hA W cfg f h]
    cases f.flushWhitespace W cfg with
    | error g => rfl
    | ok g => rfl
  · rfl

theorem flush_spaces {W : Writer σ} {cfg : Config} {f g : Fmt σ}
    (h : f.flushWhitespace W cfg = .ok g) : g.spaces = 0 := by
  rw [flush_eq] at h
  split at h
  · simp only [Except.ok.injEq] at h; rw [← h]; rfl
  · simp at h

theorem writeStr_spaces {W : Writer σ} {cfg : Config} {f g : Fmt σ} {s : Str}
    (h : f.writeStr W cfg s = .ok g) : g.spaces ≤ f.spaces := by
  unfold Fmt.writeStr at h
  split at h
  · simp only [bind] at h
    cases hf : f.flushWhitespace W cfg with
    | error e => rw [hf] at h; simp [Except.bind] at h
    | ok f' =>
      rw [hf] at h
      simp only [Except.bind, Fmt.lift] at h
      split at h
      · simp only [Except.ok.injEq] at h
        rw [← h]
        have := flush_spaces hf
        simp [this]
      · simp at h
  · simp only [Except.ok.injEq] at h; rw [h]

theorem writeAll_spaces {W : Writer σ} {cfg : Config} {ss : List Str} {f g : Fmt σ}
    (h : f.writeAll W cfg ss = .ok g) : g.spaces ≤ f.spaces := by
  induction ss generalizing f with
  | nil => simp only [Fmt.writeAll, Except.ok.injEq] at h; rw [h]
  | cons s ss ih =>
    simp only [Fmt.writeAll, bind] at h
    cases hf : f.writeStr W cfg s with
    | error e => rw [hf] at h; simp [Except.bind] at h
    | ok f' =>
      rw [hf] at h
      exact Nat.le_trans (ih h) (writeStr_spaces hf)

theorem writeAllA_eq {A : Arith} {K : Nat} (hA : Agrees A K) (W : Writer σ) (cfg : Config) (ss : List Str)
    (f : Fmt σ) (h : f.spaces + f.indent.natAbs * cfg.unit ≤ K) :
    f.writeAllA A W cfg ss = some (f.writeAll W cfg ss) := by
  induction ss generalizing f with
  | nil => rfl
  | cons s ss ih =>
    simp only [Fmt.writeAllA, Fmt.writeAll, writeStrA_eq hA W cfg f s h, Option.bind_some]
    cases hf : f.writeStr W cfg s with
    | error e => rfl
    | ok g =>
      exact ih g (by rw [writeStr_indent hf]; have := writeStr_spaces hf; omega)

theorem push_spaces (f : Fmt σ) : f.push.spaces ≤ f.spaces := by
  unfold Fmt.push; split <;> simp

theorem pushLine_spaces (f : Fmt σ) : f.pushLine.spaces ≤ f.spaces := by
  unfold Fmt.pushLine; split <;> simp

theorem formatCursor_end {L : Lang ι} {cfg : Config} {fuel : Nat} {W : Writer σ} {e : Bool}
    {st : List Frame} {items r : List (Item ι)} {f g : Fmt σ}
    (h : formatCursor L cfg fuel W e st items f = .ok (g, r)) : r.length ≤ items.length := by
  have := formatCursor_eq L cfg fuel W e st items f
  rw [h] at this
  simp only [view, runRes] at this
  split at this
  · simp at this
  · split at this
    · simp at this
    · rename_i a ha
      simp only [Except.ok.injEq, Prod.mk.injEq] at this
      rw [this.2]
      exact (resolve_suffix _ _ _ _ _ _ _ ha).length_le

/-- A bound for all numbers that occur. -/
def need (u : Nat) (f : Fmt σ) (items : List (Item ι)) : Nat :=
  f.spaces + items.length + (f.indent.natAbs + weight items) * u

theorem need_le {τ : Type} {u K : Nat} {f : Fmt σ} {g : Fmt τ} {a b : List (Item ι)} (h : need u f a ≤ K)
    (h1 : g.spaces + b.length ≤ f.spaces + a.length)
    (h2 : g.indent.natAbs + weight b ≤ f.indent.natAbs + weight a) : need u g b ≤ K := by
  have := Nat.mul_le_mul_right u h2
  simp only [need] at *
  omega

theorem need_now {u K : Nat} {f : Fmt σ} {a : List (Item ι)} (h : need u f a ≤ K) :
    f.spaces + f.indent.natAbs * u ≤ K := by
  have := Nat.mul_le_mul_right u (Nat.le_add_right f.indent.natAbs (weight a))
  simp only [need] at *
  omega

/-- Within the bound the arithmetic is exact. -/
theorem formatCursorA_eq {A : Arith} {K : Nat} (hA : Agrees A K) (L : Lang ι) (cfg : Config) (fuel : Nat) :
    ∀ {σ : Type} (W : Writer σ) (e : Bool) (stack : List Frame) (items : List (Item ι)) (f : Fmt σ),
      need cfg.unit f items ≤ K →
      formatCursorA A L cfg fuel W e stack items f = some (formatCursor L cfg fuel W e stack items f) ∧
      ∀ g r, formatCursor L cfg fuel W e stack items f = .ok (g, r) → need cfg.unit g r ≤ K := by
  induction fuel with
  | zero =>
    intro σ W e stack items f hw
    refine ⟨rfl, fun g r h => ?_⟩
    simp only [formatCursor, Except.ok.injEq, Prod.mk.injEq] at h
    rw [← h.1, ← h.2]
    exact hw
  | succ fuel ih =>
    intro σ W e stack items f hw
    cases items with
    | nil =>
      refine ⟨rfl, fun g r h => ?_⟩
      simp only [formatCursor, Except.ok.injEq, Prod.mk.injEq] at h
      rw [← h.1, ← h.2]
      exact hw
    | cons item rest =>
      have now := need_now hw
      have wr : weight rest ≤ weight (item :: rest) := by simp
      have lr : rest.length + 1 = (item :: rest).length := by simp
      have hrest : need cfg.unit f rest ≤ K := need_le hw (by omega) (by omega)
      have stop : ∀ g r, (Except.ok (f, rest) : Except (Fmt σ) (Fmt σ × List (Item ι))) = .ok (g, r) →
          need cfg.unit g r ≤ K := by
        intro g r h
        simp only [Except.ok.injEq, Prod.mk.injEq] at h
        rw [← h.1, ← h.2]
        exact hrest
      cases stack with
      | nil => exact ⟨rfl, stop⟩
      | cons head stack' =>
        have fail : ∀ h : Fmt σ, (some (.error h) : Option (Except (Fmt σ) (Fmt σ × List (Item ι)))) = some (.error h) ∧
            ∀ g r, (Except.error h : Except (Fmt σ) (Fmt σ × List (Item ι))) = .ok (g, r) → need cfg.unit g r ≤ K :=
          fun h => ⟨rfl, fun g r h => by cases h⟩
        have all : ∀ (st : List Frame) (ss : List Str) (r : List (Item ι)), weight r ≤ weight rest →
            r.length ≤ rest.length →
            (match f.writeAllA A W cfg ss with
              | none => none
              | some (.error f) => some (.error f)
              | some (.ok f) => formatCursorA A L cfg fuel W e st r f) =
            some (f.writeAll W cfg ss >>= formatCursor L cfg fuel W e st r) ∧
            ∀ g q, (f.writeAll W cfg ss >>= formatCursor L cfg fuel W e st r) = .ok (g, q) →
              need cfg.unit g q ≤ K := by
          intro st ss r hr hl
          rw [writeAllA_eq hA W cfg ss f now]
          cases hf : f.writeAll W cfg ss with
          | error g => exact fail g
          | ok g =>
            exact ih _ _ _ _ _
              (need_le hrest (by have := writeAll_spaces hf; omega) (by rw [writeAll_indent hf]; omega))
        simp only [formatCursor, formatCursorA]
        cases item with
        | register p i => exact ih _ _ _ _ _ hrest
        | literal s =>
          simp only
          cases head.inQuote with
          | true => exact all _ _ _ (Nat.le_refl _) (Nat.le_refl _)
          | false =>
            simp only [Bool.false_eq_true, if_false]
            rw [writeStrA_eq hA W cfg f s.text now]
            cases hf : f.writeStr W cfg s.text with
            | error g => exact fail g
            | ok g =>
              exact ih _ _ _ _ _
                (need_le hrest (by have := writeStr_spaces hf; omega) (by rw [writeStr_indent hf]))
        | lang p i => exact all _ _ _ (Nat.le_refl _) (Nat.le_refl _)
        | push =>
          exact ih _ _ _ _ _ (need_le hrest (by have := push_spaces f; omega) (by rw [push_indent]))
        | line =>
          exact ih _ _ _ _ _ (need_le hrest (by have := pushLine_spaces f; omega) (by rw [pushLine_indent]))
        | space =>
          have hs : f.spaces + 1 ≤ K := by simp only [need] at hw; omega
          simp only [Fmt.spaceA, hA.1 _ _ hs, Option.map_some, Option.bind_some]
          exact ih _ _ _ _ _ (need_le hw (by simp; omega) (by simp))
        | indentation n =>
          simp only
          split
          · exact ih _ _ _ _ _ hrest
          · refine ih _ _ _ _ _ (need_le hw ?_ ?_)
            · have := push_spaces f
              simp [Fmt.indentation]
              omega
            · simp only [Fmt.indentation, push_indent, weight_cons, Spec.indOf]
              omega
        | closeQuote =>
          simp only
          split
          · exact ⟨rfl, stop⟩
          · split
            · exact all _ _ _ (Nat.le_refl _) (Nat.le_refl _)
            · exact fail f
        | closeEval =>
          simp only
          split
          · exact all _ _ _ (Nat.le_refl _) (Nat.le_refl _)
          · exact fail f
        | openEval =>
          simp only
          split
          · rcases rest with _ | ⟨i1, _ | ⟨i2, rest'⟩⟩
            · exact all _ _ _ (Nat.le_refl _) (Nat.le_refl _)
            · cases i1 <;> exact all _ _ _ (Nat.le_refl _) (Nat.le_refl _)
            · cases i1 with
              | literal s =>
                cases i2 with
                | closeEval => exact all _ _ _ (by simp; omega) (by simp; omega)
                | _ => exact all _ _ _ (Nat.le_refl _) (Nat.le_refl _)
              | _ => exact all _ _ _ (Nat.le_refl _) (Nat.le_refl _)
          · exact fail f
        | openQuote ev =>
          simp only
          split
          · exact all _ _ _ (Nat.le_refl _) (Nat.le_refl _)
          · split
            · rw [writeAllA_eq hA stringWriter cfg _ (Fmt.new ([] : Str)) (by simp [Fmt.new])]
              cases h1 : (Fmt.new ([] : Str)).writeAll stringWriter cfg (L.openQuote false) with
              | error g => exact fail f
              | ok inner =>
                simp only
                have hin : inner.indent = 0 := writeAll_indent h1
                have hsp : inner.spaces ≤ 0 := writeAll_spaces h1
                have hi := ih stringWriter true [Frame.default] rest inner
                  (need_le hrest (by omega) (by rw [hin]; simp))
                rw [hi.1]
                cases h2 : formatCursor L cfg fuel stringWriter true [Frame.default] rest inner with
                | error g => exact fail f
                | ok p =>
                  obtain ⟨inner', rest'⟩ := p
                  simp only
                  rw [writeAllA_eq hA stringWriter cfg _ inner' (need_now (hi.2 _ _ h2))]
                  cases h3 : inner'.writeAll stringWriter cfg (L.closeQuote false) with
                  | error g => exact fail f
                  | ok inner'' => exact all _ _ _ (formatCursor_rest h2) (formatCursor_end h2)
            · exact fail f

theorem formatItemsA_eq {A : Arith} {K : Nat} (hA : Agrees A K) (L : Lang ι) (cfg : Config) (W : Writer σ)
    (items : List (Item ι)) (f : Fmt σ) (h : need cfg.unit f items ≤ K) :
    formatItemsA A L cfg W items f = some (formatItems L cfg W items f) := by
  unfold formatItemsA formatItems
  rw [(formatCursorA_eq hA _ _ _ _ _ _ _ _ h).1]
  cases formatCursor L cfg items.length W false [Frame.default] items f with
  | ok p => rfl
  | error g => rfl

/-! ## Items without strings, with any arithmetic -/

open Spec

/-- The characters of a placed text, where the width of the indentation and the spaces is worked out by
`A`. -/
def drawn (A : Arith) (cfg : Config) (p : Piece) : Option Str :=
  match p.margin, cfg.indentation with
  | some l, .space n =>
    ((A.mul l n).bind (A.add p.seps)).map fun k =>
      (List.replicate p.breaks cfg.newline).flatten ++ List.replicate k ' ' ++ p.text
  | _, _ => some (p.render cfg)

theorem writeLines_string (cfg : Config) (n : Nat) (o : Str) :
    writeLines stringWriter cfg n o = .ok (o ++ (List.replicate n cfg.newline).flatten) := by
  rw [writeLines_eq, replay_string, evText_lines]

theorem writeSpaces_string (n : Nat) (o : Str) :
    writeRun stringWriter SPACES n n o = .ok (o ++ List.replicate n ' ') := by
  rw [writeRun_eq stringWriter ⟨.tab, []⟩, replay_string, evText_map_str, chunks_SPACES]

theorem writeTabs_string (n : Nat) (o : Str) :
    writeRun stringWriter TABS n n o = .ok (o ++ List.replicate n '\t') := by
  rw [writeRun_eq stringWriter ⟨.tab, []⟩, replay_string, evText_map_str, chunks_TABS]

theorem string_ok (s o : Str) : stringWriter.writeStr s o = .ok (o ++ s) := rfl

/-- A text that is not empty. -/
theorem writeStrA_spec (A : Arith) (cfg : Config) (p : List Act) (o s : Str) (hs : s ≠ []) :
    ((specSt p).mk' o).writeStrA A stringWriter cfg s =
      (drawn A cfg (place p s)).map fun t => .ok ((specSt p).flushed.mk' (o ++ t)) := by
  have hmax : (max (p.map actInd).sum 0).toNat = level p := by unfold level; omega
  rw [Fmt.writeStrA, if_pos hs]
  cases hc : cfg.indentation with
  | tab =>
    by_cases h1 : isFirst p = true <;> by_cases h2 : (gap p).any isLine = true <;>
    by_cases h3 : (gap p).any isPush = true <;>
    simp only [Fmt.flushWhitespaceA, specSt, LSt.mk', drawn, place, breaks, h1, h2, h3, hc, Piece.render,
      Whitespace.intoIndent, writeLines_string, hmax, if_true, Bool.true_or, lineStart, marginText] <;>
    simp [writeSpaces_string, writeTabs_string, Fmt.lift, string_ok, LSt.flushed, bind, Except.bind, hc]
  | space n =>
    cases hm : A.mul (level p) n with
    | none =>
      by_cases h1 : isFirst p = true <;> by_cases h2 : (gap p).any isLine = true <;>
      by_cases h3 : (gap p).any isPush = true <;>
      simp only [Fmt.flushWhitespaceA, specSt, LSt.mk', drawn, place, breaks, h1, h2, h3, hc, Piece.render,
        Whitespace.intoIndent, writeLines_string, hmax, if_true, Bool.true_or, lineStart, marginText] <;>
      simp [writeSpaces_string, Fmt.lift, string_ok, LSt.flushed, lineStart,
        Whitespace.intoIndent, writeLines_string, hmax, hc, hm]
    | some w =>
      cases ha : A.add (seps p) w with
      | none =>
        by_cases h1 : isFirst p = true <;> by_cases h2 : (gap p).any isLine = true <;>
        by_cases h3 : (gap p).any isPush = true <;>
        simp only [Fmt.flushWhitespaceA, specSt, LSt.mk', drawn, place, breaks, h1, h2, h3, hc, Piece.render,
          Whitespace.intoIndent, writeLines_string, hmax, if_true, Bool.true_or, lineStart, marginText] <;>
        simp [writeSpaces_string, Fmt.lift, string_ok, LSt.flushed, lineStart,
          Whitespace.intoIndent, writeLines_string, hmax, hc, hm, ha]
      | some k =>
        by_cases h1 : isFirst p = true <;> by_cases h2 : (gap p).any isLine = true <;>
        by_cases h3 : (gap p).any isPush = true <;>
        simp only [Fmt.flushWhitespaceA, specSt, LSt.mk', drawn, place, breaks, h1, h2, h3, hc, Piece.render,
          Whitespace.intoIndent, writeLines_string, hmax, if_true, Bool.true_or, lineStart, marginText] <;>
        simp [writeSpaces_string, Fmt.lift, string_ok, LSt.flushed, lineStart,
          Whitespace.intoIndent, writeLines_string, hmax, hc, hm, ha]

/-- The state behind a text. -/
theorem specSt_text (p : List Act) (s : Str) (hs : s ≠ []) : specSt (p ++ [.text s]) = (specSt p).flushed := by
  rw [← actsSt_spec, ← actsSt_spec, actsSt_append]
  simp [actsSt, actSt, hs]

theorem specSt_empty (p : List Act) : specSt (p ++ [.text []]) = specSt p := by
  rw [← actsSt_spec, ← actsSt_spec, actsSt_append]
  simp [actsSt, actSt]

theorem seps_texts (p : List Act) (ss : List Str) : seps (p ++ ss.map .text) ≤ seps p := by
  induction ss generalizing p with
  | nil => simp
  | cons s ss ih =>
    have h : seps (p ++ [.text s]) ≤ seps p := by
      by_cases hs : s = []
      · subst hs
        exact Nat.le_of_eq (congrArg LSt.spaces (specSt_empty p))
      · have : seps (p ++ [.text s]) = 0 := congrArg LSt.spaces (specSt_text p s hs)
        omega
    have := ih (p ++ [.text s])
    simp only [List.append_assoc, List.singleton_append] at this
    exact Nat.le_trans this h

theorem writeAllA_one (A : Arith) (W : Writer σ) (cfg : Config) (f : Fmt σ) (s : Str) :
    f.writeAllA A W cfg [s] = f.writeStrA A W cfg s := by
  rw [Fmt.writeAllA]
  rcases f.writeStrA A W cfg s with _ | _ | _ <;> rfl

theorem specSt_act (p : List Act) (a : Act) : specSt (p ++ [a]) = actSt (specSt p) a := by
  rw [← actsSt_spec, ← actsSt_spec, actsSt_append]
  rfl

/-- Texts one after the other. -/
theorem writeAllA_spec (A : Arith) (cfg : Config) (ss : List Str) (p : List Act) (o : Str) :
    ((specSt p).mk' o).writeAllA A stringWriter cfg ss =
      ((piecesFrom p (ss.map .text)).mapM (drawn A cfg)).map fun ts =>
        .ok ((specSt (p ++ ss.map .text)).mk' (o ++ ts.flatten)) := by
  induction ss generalizing p o with
  | nil => simp [Fmt.writeAllA, piecesFrom]
  | cons s ss ih =>
    rw [Fmt.writeAllA]
    by_cases hs : s = []
    · subst hs
      have := ih (p ++ [.text []]) o
      rw [specSt_empty] at this
      simp only [Fmt.writeStrA, ne_eq, not_true, if_false, Option.bind_some, List.map_cons, piecesFrom, List.nil_append]
      rw [this]
      simp
    · rw [writeStrA_spec A cfg p o s hs]
      simp only [List.map_cons, piecesFrom, ne_eq, hs, not_false_eq_true, if_true, List.singleton_append,
        List.mapM_cons]
      cases drawn A cfg (place p s) with
      | none => rfl
      | some t =>
        simp only [Option.map_some, Option.bind_some]
        rw [← specSt_text p s hs, ih]
        cases List.mapM (drawn A cfg) (piecesFrom (p ++ [.text s]) (ss.map .text)) with
        | none => rfl
        | some ts => simp

/-- Items without strings: the requests are carried out with the widths of `A`. -/
theorem formatCursorA_plain (A : Arith) (K : Nat) (hA : ∀ a, a + 1 ≤ K → A.add a 1 = some (a + 1)) (L : Lang ι)
    (cfg : Config) (items : List (Item ι)) (hp : ∀ i ∈ items, isPlain i = true) (p : List Act) (o : Str)
    (hK : seps p + items.length ≤ K) :
    formatCursorA A L cfg items.length stringWriter false [Frame.default] items ((specSt p).mk' o) =
      ((piecesFrom p (items.flatMap (plainActs L.langItem))).mapM (drawn A cfg)).map fun ts =>
        .ok ((specSt (p ++ items.flatMap (plainActs L.langItem))).mk' (o ++ ts.flatten), []) := by
  induction items generalizing p o with
  | nil => simp [formatCursorA, piecesFrom]
  | cons i items ih =>
    have ih := ih (fun j hj => hp j (by simp [hj]))
    have hi := hp i (by simp)
    rw [List.length_cons] at hK
    have stay : ∀ a, plainActs L.langItem i = [a] → visible a = false →
        seps (p ++ [a]) + items.length ≤ K →
        formatCursorA A L cfg items.length stringWriter false [Frame.default] items ((specSt (p ++ [a])).mk' o) =
        ((piecesFrom p ((i :: items).flatMap (plainActs L.langItem))).mapM (drawn A cfg)).map fun ts =>
          .ok ((specSt (p ++ (i :: items).flatMap (plainActs L.langItem))).mk' (o ++ ts.flatten), []) := by
      intro a ha hv hk
      rw [ih _ _ hk, List.flatMap_cons, ha, piecesFrom_append, piecesFrom_invisible p [a] (by simpa using hv)]
      simp
    have none_ : plainActs L.langItem i = [] →
        formatCursorA A L cfg items.length stringWriter false [Frame.default] items ((specSt p).mk' o) =
        ((piecesFrom p ((i :: items).flatMap (plainActs L.langItem))).mapM (drawn A cfg)).map fun ts =>
          .ok ((specSt (p ++ (i :: items).flatMap (plainActs L.langItem))).mk' (o ++ ts.flatten), []) := by
      intro ha
      rw [ih _ _ (by omega), List.flatMap_cons, ha]
      simp
    have write : ∀ ss : List Str, plainActs L.langItem i = ss.map .text →
        (((specSt p).mk' o).writeAllA A stringWriter cfg ss = none ∧
          (piecesFrom p ((i :: items).flatMap (plainActs L.langItem))).mapM (drawn A cfg) = none) ∨
        ∃ f, ((specSt p).mk' o).writeAllA A stringWriter cfg ss = some (.ok f) ∧
          formatCursorA A L cfg items.length stringWriter false [Frame.default] items f =
          ((piecesFrom p ((i :: items).flatMap (plainActs L.langItem))).mapM (drawn A cfg)).map fun ts =>
            .ok ((specSt (p ++ (i :: items).flatMap (plainActs L.langItem))).mk' (o ++ ts.flatten), []) := by
      intro ss ha
      have hsp := seps_texts p ss
      rw [writeAllA_spec, List.flatMap_cons, ha, piecesFrom_append, List.mapM_append]
      cases List.mapM (drawn A cfg) (piecesFrom p (ss.map .text)) with
      | none => exact Or.inl ⟨rfl, rfl⟩
      | some ts =>
        refine Or.inr ⟨_, rfl, ?_⟩
        rw [ih _ _ (by omega)]
        cases List.mapM (drawn A cfg) (piecesFrom (p ++ ss.map .text) (items.flatMap (plainActs L.langItem))) with
        | none => rfl
        | some us => simp
    have push_st : ∀ st : LSt, (st.mk' o).push = (actSt st .push).mk' o := by
      intro st; rcases st with ⟨_ | _ | _ | _, _, _⟩ <;> rfl
    have line_st : ∀ st : LSt, (st.mk' o).pushLine = (actSt st .line).mk' o := by
      intro st; rcases st with ⟨_ | _ | _ | _, _, _⟩ <;> rfl
    have ind_st : ∀ (st : LSt) (n : Int), (st.mk' o).indentation n = (actSt st (.indent n)).mk' o := by
      intro st n; rcases st with ⟨_ | _ | _ | _, _, _⟩ <;> rfl
    have seps_le : ∀ a, (actSt (specSt p) a).spaces ≤ (specSt p).spaces → seps (p ++ [a]) ≤ seps p := by
      intro a h
      rw [← specSt_act] at h
      exact h
    simp only [List.length_cons, formatCursorA]
    cases i with
    | literal s =>
      have hq : Frame.default.inQuote = false := rfl
      simp only [hq, Bool.false_eq_true, if_false, ← writeAllA_one]
      rcases write [s.text] rfl with ⟨h1, h2⟩ | ⟨f, h1, h2⟩
      · simp only [h1, h2, Option.map_none]
      · simp only [h1, h2]
    | lang q i =>
      rcases write (L.langItem i) rfl with ⟨h1, h2⟩ | ⟨f, h1, h2⟩
      · simp only [h1, h2, Option.map_none]
      · simp only [h1, h2]
    | register q i => exact none_ rfl
    | push =>
      simp only [push_st, ← specSt_act]
      refine stay .push rfl rfl ?_
      have := seps_le .push (by rcases specSt p with ⟨_ | _ | _ | _, _, _⟩ <;> simp [actSt])
      omega
    | line =>
      simp only [line_st, ← specSt_act]
      refine stay .line rfl rfl ?_
      have := seps_le .line (by rcases specSt p with ⟨_ | _ | _ | _, _, _⟩ <;> simp [actSt])
      omega
    | space =>
      have h1 : seps (p ++ [.space]) = seps p + 1 := congrArg LSt.spaces (specSt_act p .space)
      have h2 : ((specSt p).mk' o).spaceA A = some ((specSt (p ++ [.space])).mk' o) := by
        rw [specSt_act]
        have : ((specSt p).mk' o).spaces = seps p := rfl
        simp only [Fmt.spaceA, this, hA (seps p) (by omega), Option.map_some]
        rfl
      simp only [h2, Option.bind_some]
      exact stay .space rfl rfl (by omega)
    | indentation n =>
      simp only
      by_cases hn : n = 0
      · rw [if_pos hn]
        exact none_ (by simp [plainActs, hn])
      · rw [if_neg hn, ind_st, ← specSt_act]
        refine stay (.indent n) (by simp [plainActs, hn]) rfl ?_
        have := seps_le (.indent n) (by rcases specSt p with ⟨_ | _ | _ | _, _, _⟩ <;> simp [actSt])
        omega
    | _ => simp [isPlain] at hi

theorem formatItemsA_plain (A : Arith) (K : Nat) (hA : ∀ a, a + 1 ≤ K → A.add a 1 = some (a + 1)) (L : Lang ι)
    (cfg : Config) (items : List (Item ι)) (hp : ∀ i ∈ items, isPlain i = true) (hK : items.length ≤ K) :
    (formatItemsA A L cfg stringWriter items (Fmt.new [])).map (okOf Fmt.out) =
      ((pieces (items.flatMap (plainActs L.langItem))).mapM (drawn A cfg)).map fun ts => some ts.flatten := by
  have h := formatCursorA_plain A K hA L cfg items hp [] [] (by simpa [seps, isFirst, gap, afterLast] using hK)
  have e : (specSt []).mk' ([] : Str) = Fmt.new [] := rfl
  rw [e] at h
  rw [formatItemsA, h, pieces]
  cases List.mapM (drawn A cfg) (piecesFrom [] (items.flatMap (plainActs L.langItem))) with
  | none => rfl
  | some ts => rfl

end Genco
