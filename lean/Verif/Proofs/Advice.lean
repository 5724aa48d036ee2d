import Verif.Model.Advice
import Verif.Spec.Advice
import Verif.Proofs.Comments
import Verif.Proofs.Fake
import Verif.Proofs.MacroLines

/-!
# Layout errors
-/

set_option autoImplicit false

namespace Genco.Macro

open Spec Spec.MacroFile Spec.Advice

variable {ι E : Type}

/-- The message names the column. -/
theorem message_moves (tc c : Nat) (h : tc ≠ c) : Moves (indentationMessage tc c) tc c := by
  unfold indentationMessage spaceWord usizeText
  by_cases h1 : tc > c
  · rw [if_pos h1]
    dsimp only
    by_cases h2 : tc - c = 1
    · rw [if_pos h2, h2, show tc = c + 1 by omega]
      exact .lessOne c
    · rw [if_neg h2, toDigits_decimal]
      have := Moves.less (decimal_digits (tc - c)) h2 c
      rw [show c + (tc - c) = tc by omega] at this
      simpa using this
  · rw [if_neg h1]
    dsimp only
    by_cases h2 : c - tc = 1
    · rw [if_pos h2, h2, show c = tc + 1 by omega]
      exact .moreOne tc
    · rw [if_neg h2, toDigits_decimal]
      have := Moves.more (decimal_digits (c - tc)) h2 tc
      rw [show tc + (c - tc) = c by omega] at this
      simpa using this

theorem Reads.unique {a : Nat} {s : Str} {n m : Nat} (h : Reads a s n) (h' : Reads a s m) : n = m := by
  induction h with
  | nil => cases h'; rfl
  | cons hd _ ih =>
    cases h' with
    | cons hd' hr' =>
      rw [hd] at hd'
      cases hd'
      exact ih hr'

theorem digits_unique {s : Str} {n m : Nat} (h : SpanText.Digits s n) (h' : SpanText.Digits s m) : n = m :=
  (digits_reads h).2.unique (digits_reads h').2

theorem digits_space {s : Str} {n : Nat} (h : SpanText.Digits s n) : ' ' ∉ s := by
  have one : ∀ {c : Char} {d : Nat}, SpanText.digitOf c = some d → ' ' ≠ c := by
    rintro c d hd rfl
    cases hd
  induction h with
  | one hd => simpa using one hd
  | more _ hd ih => simpa using ⟨ih, one hd⟩

/-- What messages look like. -/
theorem moves_shape {m : Str} {old new : Nat} (h : Moves m old new) : ∃ d n r, SpanText.Digits d n ∧
    ((m = "expected ".toList ++ (d ++ ' ' :: 'l' :: r) ∧ old = new + n) ∨
     (m = "expected ".toList ++ (d ++ ' ' :: 'm' :: r) ∧ new = old + n)) := by
  cases h with
  | lessOne => exact ⟨['1'], 1, "ess space of indentation".toList, .one rfl, .inl ⟨rfl, rfl⟩⟩
  | moreOne => exact ⟨['1'], 1, "ore space of indentation".toList, .one rfl, .inr ⟨rfl, rfl⟩⟩
  | less h => exact ⟨_, _, "ess spaces of indentation".toList, h, .inl ⟨by simp, rfl⟩⟩
  | more h => exact ⟨_, _, "ore spaces of indentation".toList, h, .inr ⟨by simp, rfl⟩⟩

theorem until_space {a b x y : Str} (ha : ' ' ∉ a) (hb : ' ' ∉ b) (h : a ++ ' ' :: x = b ++ ' ' :: y) :
    a = b ∧ x = y := by
  induction a generalizing b with
  | nil =>
    cases b with
    | nil => exact ⟨rfl, by simpa using h⟩
    | cons c b => simp at h hb; exact absurd h.1 (by simpa using hb.1)
  | cons c a ih =>
    cases b with
    | nil => simp at h ha; exact absurd h.1.symm (by simpa using ha.1)
    | cons c' b =>
      simp at h ha hb
      obtain ⟨h1, h2⟩ := ih ha.2 hb.2 h.2
      exact ⟨by rw [h.1, h1], h2⟩

theorem moves_unique {m : Str} {old new new' : Nat} (h : Moves m old new) (h' : Moves m old new') :
    new = new' := by
  obtain ⟨d, n, r, hd, h1⟩ := moves_shape h
  obtain ⟨d', n', r', hd', h2⟩ := moves_shape h'
  have s := digits_space hd
  have s' := digits_space hd'
  rcases h1 with ⟨e1, h1⟩ | ⟨e1, h1⟩ <;> rcases h2 with ⟨e2, h2⟩ | ⟨e2, h2⟩ <;>
    obtain ⟨rfl, h3⟩ := until_space s s' (List.append_cancel_left (e1.symm.trans e2))
  · have := digits_unique hd hd'
    omega
  · exact absurd (List.cons.inj h3).1 (by decide)
  · exact absurd (List.cons.inj h3).1 (by decide)
  · have := digits_unique hd hd'
    omega

/-- The level that is asked for: the innermost that is further out than the line, or the outermost if
there is none. -/
def Asked (tc c : Nat) (l : List Nat) : Prop :=
  c ∈ l ∧ tc ∉ l ∧ (c < tc ∧ (∀ x ∈ l, x < tc → x ≤ c) ∨ tc < c ∧ ∀ x ∈ l, c ≤ x)

theorem unindents_asked (tc : Nat) (line : Bool) (l : List Nat) (hs : l.Pairwise (· > ·)) (h0 : l ≠ [])
    (h : tc ∉ l) :
    ∃ c, Enc.unindents (ι := ι) (E := E) tc line l = .error (.indentation tc c) ∧ Asked tc c l := by
  induction l with
  | nil => exact absurd rfl h0
  | cons x l ih =>
    rw [Enc.unindents]
    have hx : x ≠ tc := fun e => h (by simp [e])
    have hp := List.pairwise_cons.1 hs
    by_cases h1 : x > tc ∧ l ≠ []
    · rw [if_pos h1]
      obtain ⟨c, he, hm, -, ha⟩ := ih hp.2 h1.2 (fun h' => h (by simp [h']))
      rw [he]
      refine ⟨c, rfl, by simp [hm], h, ?_⟩
      rcases ha with ⟨h2, h3⟩ | ⟨h2, h3⟩
      · refine .inl ⟨h2, fun y hy hy' => ?_⟩
        rcases List.mem_cons.1 hy with rfl | hy
        · have := h1.1; omega
        · exact h3 y hy hy'
      · refine .inr ⟨h2, fun y hy => ?_⟩
        rcases List.mem_cons.1 hy with rfl | hy
        · exact Nat.le_of_lt (hp.1 c hm)
        · exact h3 y hy
    · rw [if_neg h1, if_neg hx]
      refine ⟨x, rfl, by simp, h, ?_⟩
      by_cases h2 : x < tc
      · refine .inl ⟨h2, fun y hy _ => ?_⟩
        rcases List.mem_cons.1 hy with rfl | hy
        · exact Nat.le_refl _
        · exact Nat.le_of_lt (hp.1 y hy)
      · have hl : l = [] := by
          by_cases hl : l = []
          · exact hl
          · exact absurd ⟨by omega, hl⟩ h1
        refine .inr ⟨by omega, fun y hy => ?_⟩
        subst hl
        simp at hy
        omega

/-- The error of a piece that is not laid out properly. -/
theorem tokenize_error (e : Enc ι E) (p : Nat) (past : List Nat) (h : Ready e p past) (stop tc : Pos)
    (hg : gapBefore p past stop tc = none) :
    (tc.line < stop.line ∧ e.tokenizeWhitespace stop tc = .error .panic) ∨
    (stop.line < tc.line ∧ tc.column < p ∧ ∃ c, e.tokenizeWhitespace stop tc = .error (.indentation tc.column c) ∧
      Asked tc.column c (enclosing p past)) := by
  unfold gapBefore at hg
  have fl := flush_same e
  by_cases h1 : stop.line = tc.line
  · rw [if_pos h1] at hg; cases hg
  rw [if_neg h1] at hg
  have h2 : stop ≠ tc := fun e => h1 (by rw [e])
  unfold Enc.tokenizeWhitespace
  rw [if_neg h2, if_neg h1]
  dsimp only
  by_cases h3 : tc.line < stop.line
  · rw [if_pos h3]
    exact .inl ⟨h3, rfl⟩
  · rw [if_neg h3] at hg ⊢
    rw [fl.2.2.2.1, h.column]
    dsimp only
    by_cases hf : Falls tc.column p past
    · rw [if_pos hf] at hg; cases hg
    rw [if_neg hf] at hg
    by_cases hl : Legal tc.column p past
    · rw [if_pos hl] at hg; cases hg
    have h4 : ¬ p < tc.column := fun h => hl (.inl h)
    have h5 : tc.column ≠ p := fun h => hl (.inr (.inl h))
    have h6 : p > tc.column := by omega
    refine .inr ⟨by omega, h6, ?_⟩
    rw [if_neg h4, if_pos h6]
    have hi : e.flush.indents = enclosing p past := fl.2.2.2.2.1.trans h.indents
    rw [show ({ e.flush with lastStartColumn := none } : Enc ι E).indents = enclosing p past from hi]
    obtain ⟨c, hc, ha⟩ := unindents_asked (ι := ι) (E := E) tc.column (decide (tc.line - stop.line > 1)) _
      (enclosing_sorted p past) (fun e => hf ⟨h6, e⟩) (fun hm => hl (.inr (.inr hm)))
    rw [hc]
    exact ⟨c, rfl, ha⟩

theorem encode_error {e : Enc ι E} {p : Nat} {past : List Nat} {stop : Pos} (h : Enters e p past stop)
    (cur : Cur) (a : Ast ι E) (hg : gapBefore p past stop cur.start = none) :
    (cur.start.line < stop.line ∧ e.encode cur a = .error .panic) ∨
    (stop.line < cur.start.line ∧ cur.start.column < p ∧
      ∃ c, e.encode cur a = .error (.indentation cur.start.column c) ∧
        Asked cur.start.column c (enclosing p past)) := by
  obtain ⟨e1, h1, hr, -⟩ := h
  unfold Enc.encode Enc.step
  rw [h1]
  dsimp only
  rcases tokenize_error e1 p past hr stop cur.start hg with ⟨h2, h3⟩ | ⟨h2, h3, c, h4, h5⟩
  · rw [h3]; exact .inl ⟨h2, rfl⟩
  · rw [h4]; exact .inr ⟨h2, h3, c, rfl, h5⟩

/-- Why the token behind `seen` (last one first) is refused, and with which error. -/
def Refused (seen : List Tok) (t : Tok) (x : Err) : Prop :=
  ∃ z r q qs, seen = z :: r ∧ lineColumns (z :: r) = q :: qs ∧
    ((t.1.start.line < z.1.stop.line ∧ x = .panic) ∨
     (z.1.stop.line < t.1.start.line ∧ t.1.start.column < q ∧
      ∃ c, x = .indentation t.1.start.column c ∧ Asked t.1.start.column c (enclosing q qs)))

theorem nodes_error (ts : List Tok) : ∀ (s : Tok) (r : List Tok) (p : Nat) (past : List Nat) (e : Enc ι E),
    lineColumns (s :: r) = p :: past → Placed e p past s.1.stop → e.spanEnd = none →
    ∀ x, (nodes e (tokens ts)).bind Enc.intoOutput = .error x →
    ∃ a t b, ts = a ++ t :: b ∧ Follow (s :: r) a ∧ Refused (a.reverse ++ s :: r) t x := by
  induction ts with
  | nil =>
    intro s r p past e _ _ hs x hx
    have hx : e.intoOutput = .error x := hx
    unfold Enc.intoOutput at hx
    rw [hs] at hx
    cases hx
  | cons t ts ih =>
    intro s r p past e hl hp hs x hx
    have hn : nodes e (tokens (t :: ts)) = (e.encode t.1 (.tree t.2)).bind (fun e => nodes e (tokens ts)) := rfl
    rw [hn] at hx
    cases hg : gapBefore p past s.1.stop t.1.start with
    | none =>
      refine ⟨[], t, ts, rfl, trivial, s, r, p, past, rfl, hl, ?_⟩
      rcases encode_error hp.enters t.1 (.tree t.2) hg with ⟨h1, h2⟩ | ⟨h1, h2, c, h3, h4⟩
      · rw [h2] at hx; cases hx; exact .inl ⟨h1, rfl⟩
      · rw [h3] at hx; cases hx; exact .inr ⟨h1, h2, c, rfl, h4⟩
    | some w =>
      obtain ⟨hf, -⟩ := (gapBefore_for t s r p past hl w).1 hg
      obtain ⟨e', g1, -, g3, -, g5, g6⟩ := (encode_spec hp.enters t.1 (.tree t.2)).2 w hg
      rw [g1] at hx
      have hx : (nodes e' (tokens ts)).bind Enc.intoOutput = .error x := hx
      have key : ∃ q qs, lineColumns (t :: s :: r) = q :: qs ∧ Placed e' q qs t.1.stop := by
        by_cases h1 : s.1.stop.line = t.1.start.line
        · exact ⟨p, past, by rw [lineColumns, if_pos h1, hl], g5 h1⟩
        · exact ⟨_, _, by rw [lineColumns, if_neg h1, hl], g6 h1⟩
      obtain ⟨q, qs, hq, hp'⟩ := key
      obtain ⟨a, u, b, h1, h2, h3⟩ := ih t (s :: r) q qs e' hq hp' (g3.trans hs) x hx
      refine ⟨t :: a, u, b, by rw [h1]; rfl, ⟨hf, h2⟩, ?_⟩
      rw [List.reverse_cons, List.append_assoc]
      exact h3

/-- The token at which a macro with tokens fails, and how. -/
theorem quote_error (ts : List Tok) (x : Err) (h : quote (ι := ι) (E := E) none (tokens ts) = .error x) :
    ∃ a t b, ts = a ++ t :: b ∧ Follow [] a ∧ Refused a.reverse t x := by
  cases ts with
  | nil => cases h
  | cons t ts =>
    obtain ⟨e', g1, -, g3, -, g5⟩ := encode_first (ι := ι) (E := E) t.1 (.tree t.2) none
    have hn : quote (ι := ι) (E := E) none (tokens (t :: ts)) =
        (((Enc.new none none).encode t.1 (.tree t.2)).bind (fun e => nodes e (tokens ts))).bind
          Enc.intoOutput := rfl
    rw [hn, g1] at h
    obtain ⟨a, u, b, h1, h2, h3⟩ := nodes_error ts t [] t.1.start.column [] e' rfl g5 g3 x h
    refine ⟨t :: a, u, b, by rw [h1]; rfl, ⟨trivial, h2⟩, ?_⟩
    rw [List.reverse_cons]
    exact h3

theorem follow_append (a b : List Tok) : ∀ seen, Follow seen (a ++ b) ↔
    Follow seen a ∧ Follow (a.reverse ++ seen) b := by
  induction a with
  | nil => intro seen; exact ⟨fun h => ⟨trivial, h⟩, fun h => h.2⟩
  | cons t a ih =>
    intro seen
    rw [List.cons_append, Follow, Follow, ih, List.reverse_cons, List.append_assoc, and_assoc]
    rfl

theorem follow_goes (l : List Tok) : ∀ (s : Tok) (r : List Tok), Goes s.1.stop l → Follow (s :: r) l := by
  induction l with
  | nil => intro _ _ _; trivial
  | cons t l ih =>
    intro s r h
    refine ⟨?_, ih t (s :: r) h.2⟩
    obtain ⟨q, qs, hq⟩ := lineColumns_cons s r
    unfold Follows
    rw [hq]
    exact .inl h.1

/-- Whether a token on a later line may follow depends on the column. -/
theorem follows_later (t z : Tok) (r : List Tok) (q : Nat) (qs : List Nat) (hl : lineColumns (z :: r) = q :: qs)
    (h : z.1.stop.line < t.1.start.line) : Follows t (z :: r) ↔
      Legal t.1.start.column q qs ∨ Falls t.1.start.column q qs := by
  unfold Follows
  rw [hl]
  dsimp only
  constructor
  · rintro (h1 | h1)
    · omega
    · exact h1.2
  · exact fun h1 => .inr ⟨h, h1⟩

end Genco.Macro
