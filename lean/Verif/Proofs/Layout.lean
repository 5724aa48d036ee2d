import Verif.Proofs.Replay
import Verif.Spec.Layout

/-!
# The layout stage implements the layout specification
-/

set_option autoImplicit false

namespace Genco

open Spec

variable {ι σ : Type}

@[simp] theorem isLine_text (s : Str): isLine (.text s) = false := rfl
@[simp] theorem isLine_push : isLine (.push) = false := rfl
@[simp] theorem isLine_line : isLine (.line) = true := rfl
@[simp] theorem isLine_space : isLine (.space) = false := rfl
@[simp] theorem isLine_indent (n : Int): isLine (.indent n) = false := rfl
@[simp] theorem isPush_text (s : Str): isPush (.text s) = false := rfl
@[simp] theorem isPush_push : isPush (.push) = true := rfl
@[simp] theorem isPush_line : isPush (.line) = false := rfl
@[simp] theorem isPush_space : isPush (.space) = false := rfl
@[simp] theorem isPush_indent (n : Int): isPush (.indent n) = true := rfl
@[simp] theorem isSpace_text (s : Str): isSpace (.text s) = false := rfl
@[simp] theorem isSpace_push : isSpace (.push) = false := rfl
@[simp] theorem isSpace_line : isSpace (.line) = false := rfl
@[simp] theorem isSpace_space : isSpace (.space) = true := rfl
@[simp] theorem isSpace_indent (n : Int): isSpace (.indent n) = false := rfl
@[simp] theorem visible_push : visible (.push) = false := rfl
@[simp] theorem visible_line : visible (.line) = false := rfl
@[simp] theorem visible_space : visible (.space) = false := rfl
@[simp] theorem visible_indent (n : Int): visible (.indent n) = false := rfl

/-! ## Chunked runs -/

theorem chunks_flatten (c : Char) (k : Nat) (hk : 0 < k) (fuel n : Nat) (h : n ≤ fuel) :
    (chunks (List.replicate k c) fuel n).flatten = List.replicate n c := by
  induction fuel generalizing n with
  | zero =>
    have : n = 0 := by omega
    simp [chunks, this]
  | succ fuel ih =>
    simp only [chunks]
    split
    · rename_i hn
      simp only [List.length_replicate, List.flatten_cons, List.take_replicate]
      rw [ih _ (by omega), List.replicate_append_replicate]
      congr 1
      omega
    · have : n = 0 := by omega
      simp [this]

theorem chunks_SPACES (n : Nat) : (chunks SPACES n n).flatten = List.replicate n ' ' :=
  chunks_flatten ' ' 100 (by omega) n n (Nat.le_refl _)

theorem chunks_TABS (n : Nat) : (chunks TABS n n).flatten = List.replicate n '\t' :=
  chunks_flatten '\t' 40 (by omega) n n (Nat.le_refl _)

theorem evText_map_str (nl : Str) (l : List Str) : evText nl (l.map .str) = l.flatten := by
  induction l with
  | nil => rfl
  | cons s l ih => simp [evText, ih]

theorem evText_lines (nl : Str) (n : Nat) :
    evText nl (List.replicate n .line) = (List.replicate n nl).flatten := by
  induction n with
  | zero => rfl
  | succ n ih => simp [List.replicate_succ, evText, ih]

/-- The text of a flush. -/
theorem evText_flush (cfg : Config) (nl : Str) (st : LSt) :
    evText nl (flushEv cfg st) =
      match st.line.intoIndent with
      | some lines =>
        (List.replicate lines nl).flatten ++ marginText cfg st.indent.toNat ++
          List.replicate st.spaces ' '
      | none => List.replicate st.spaces ' ' := by
  have hmax : (max st.indent 0).toNat = st.indent.toNat := by omega
  unfold flushEv marginText
  cases st.line.intoIndent with
  | none => simp [evText_map_str, chunks_SPACES]
  | some lines =>
    simp only [evText_append, evText_lines, hmax]
    cases cfg.indentation with
    | space n =>
      simp [evText_map_str, chunks_SPACES, Nat.add_comm]
    | tab => simp [evText_append, evText_map_str, chunks_SPACES, chunks_TABS]

/-! ## State after a prefix -/

theorem afterLast_concat (q : Act → Bool) (p : List Act) (a : Act) :
    afterLast q (p ++ [a]) = if q a then [] else afterLast q p ++ [a] := by
  unfold afterLast
  cases h : q a <;> simp [h]

theorem gap_concat (p : List Act) (a : Act) :
    gap (p ++ [a]) = if visible a then [] else gap p ++ [a] := afterLast_concat ..

theorem isFirst_concat (p : List Act) (a : Act) :
    isFirst (p ++ [a]) = (isFirst p && !visible a) := by
  simp [isFirst, List.any_append]

/-- Whitespace state of the formatter after `p`, according to the
specification. -/
def specSt (p : List Act) : LSt where
  line := if isFirst p then .initial else
    if (gap p).any isLine then .line else if (gap p).any isPush then .push else .none
  spaces := seps p
  indent := (p.map actInd).sum

theorem seps_concat_ws (p : List Act) (a : Act) (hv : visible a = false) :
    seps (p ++ [a]) =
      if isFirst p then seps p + (if isSpace a then 1 else 0)
      else if isLine a then 0
      else if (gap p).any isLine then seps p + (if isSpace a then 1 else 0)
      else if isPush a then 0
      else seps p + (if isSpace a then 1 else 0) := by
  simp only [seps, isFirst_concat, gap_concat, hv, Bool.not_false, Bool.and_true]
  cases h1 : isFirst p
  · simp only [Bool.false_eq_true, if_false, List.any_append, List.any_cons, List.any_nil,
      Bool.or_false, afterLast_concat]
    cases a with
    | line => simp [isLine]
    | push =>
      cases h2 : (gap p).any isLine <;> simp [isLine, isPush, isSpace, List.countP_append]
    | indent n =>
      cases h2 : (gap p).any isLine <;> simp [isLine, isPush, isSpace, List.countP_append]
    | space =>
      cases h2 : (gap p).any isLine <;> simp [isLine, isPush, isSpace, List.countP_append]
    | text s =>
      cases h2 : (gap p).any isLine <;> simp [isLine, isPush, isSpace, List.countP_append]
  · cases h2 : isSpace a <;> simp [List.countP_append, h2]

theorem actsSt_spec (p : List Act) : actsSt .new p = specSt p := by
  suffices h : ∀ r : List Act, actsSt .new r.reverse = specSt r.reverse by
    have := h p.reverse
    simpa using this
  intro r
  induction r with
  | nil => rfl
  | cons a r ih =>
    rw [List.reverse_cons, actsSt_append, ih]
    generalize r.reverse = p
    simp only [actsSt]
    cases hv : visible a with
    | true =>
      cases a with
      | text s =>
        have hs : s ≠ [] := by simpa [visible] using hv
        simp only [actSt, hs, ne_eq, not_false_eq_true, if_true, LSt.flushed]
        simp [specSt, isFirst_concat, hv, gap_concat, seps, afterLast, actInd]
      | _ => simp [visible] at hv
    | false =>
      have hsep := seps_concat_ws p a hv
      have hfirst : isFirst (p ++ [a]) = isFirst p := by simp [isFirst_concat, hv]
      have hgap : gap (p ++ [a]) = gap p ++ [a] := by simp [gap_concat, hv]
      simp only [specSt, hsep, hfirst, hgap, List.any_append, List.any_cons, List.any_nil,
        Bool.or_false, List.map_append, List.sum_append, List.map_cons, List.map_nil,
        List.sum_cons, List.sum_nil, Int.add_zero]
      cases a with
      | text s =>
        have hs : s = [] := by simpa [visible] using hv
        cases h1 : isFirst p <;> cases h2 : (gap p).any isLine <;> cases h3 : (gap p).any isPush <;>
          simp [actSt, isLine, isPush, isSpace, actInd, hs]
      | _ =>
        cases h1 : isFirst p <;> cases h2 : (gap p).any isLine <;> cases h3 : (gap p).any isPush <;>
          simp [actSt, isLine, isPush, isSpace, actInd]

theorem flush_render (cfg : Config) (p : List Act) (s : Str) :
    evText cfg.newline (flushEv cfg (specSt p)) ++ s = (place p s).render cfg := by
  rw [evText_flush]
  by_cases h1 : isFirst p = true <;> by_cases h2 : (gap p).any isLine = true <;>
    by_cases h3 : (gap p).any isPush = true <;>
    simp only [specSt, place, Piece.render, breaks, level, h1, h2, h3] <;>
    simp [Whitespace.intoIndent, lineStart]

theorem evText_acts (cfg : Config) (p acts : List Act) :
    evText cfg.newline (actsEv cfg (actsSt .new p) acts) =
      (piecesFrom p acts).flatMap (Piece.render cfg) := by
  induction acts generalizing p with
  | nil => rfl
  | cons a r ih =>
    have hst : actSt (actsSt .new p) a = actsSt .new (p ++ [a]) := by
      rw [actsSt_append]; rfl
    simp only [actsEv, evText_append, hst, ih]
    cases a with
    | text s =>
      simp only [actEv, piecesFrom]
      by_cases hs : s = []
      · simp [hs, evText]
      · rw [if_pos hs, if_pos hs, evText_append, actsSt_spec, List.flatMap_append]
        congr 1
        simpa [evText] using flush_render cfg p s
    | _ => rfl

/-- What actions render to. -/
theorem renderActs_eq (cfg : Config) (acts : List Act) : renderActs cfg acts = render cfg acts :=
  evText_acts cfg [] acts

/-! ## Plain streams -/

theorem pre_some {α : Type} (a b : List Act) (x : α) : pre a (b, some x) = (a ++ b, some x) := rfl

/-- Plain items resolve to what they ask for, outside quotes. -/
theorem resolve_plain (L : Lang ι) (cfg : Config) (items : List (Item ι))
    (hp : ∀ i ∈ items, isPlain i = true) (rest : List (Item ι)) (fuel : Nat) (e : Bool)
    (head : Frame) (stack : List Frame) (hq : head.inQuote = false) :
    resolve L cfg (items.length + fuel) e (head :: stack) (items ++ rest) =
      pre (items.flatMap (plainActs L.langItem)) (resolve L cfg fuel e (head :: stack) rest) := by
  induction items with
  | nil => simp [pre]
  | cons i items ih =>
    have ih := ih (fun i hi => hp i (List.mem_cons_of_mem _ hi))
    have hi := hp i List.mem_cons_self
    have hl : (i :: items).length + fuel = (items.length + fuel) + 1 := by simp; omega
    rw [hl]
    simp only [List.cons_append, resolve]
    cases i with
    | literal s => simp [hq, ih, pre, plainActs]
    | lang p i => simp [ih, pre, plainActs, texts]
    | register p i => simp [ih, pre, plainActs]
    | push => simp [ih, pre, plainActs]
    | line => simp [ih, pre, plainActs]
    | space => simp [ih, pre, plainActs]
    | indentation n =>
      simp only [ih, pre, plainActs, List.flatMap_cons]
      split <;> simp
    | _ => simp [isPlain] at hi

theorem resolveItems_plain (L : Lang ι) (cfg : Config) (items : List (Item ι))
    (hp : ∀ i ∈ items, isPlain i = true) :
    resolveItems L cfg items = (items.flatMap (plainActs L.langItem), some ()) := by
  have := resolve_plain L cfg items hp [] 0 false Frame.default [] rfl
  simp only [Nat.add_zero, List.append_nil] at this
  simp [resolveItems, this, resolve, pre]

theorem toString_eq (L : Lang ι) (cfg : Config) (items : List (Item ι)) :
    toString L cfg items =
      (resolveItems L cfg items).2.map (fun _ => render cfg (resolveItems L cfg items).1) := by
  simp only [toString]
  rw [show Fmt.out (σ := Str) = (fun f => id f.out) from rfl, okOf_eq, formatItems_out]
  simp only [replay_string]
  cases h : (resolveItems L cfg items).2 with
  | none => rfl
  | some u =>
    simp only [Option.map, id, ← renderActs_eq, renderActs]
    rfl

end Genco
