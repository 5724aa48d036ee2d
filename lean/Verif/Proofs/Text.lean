import Verif.Model.Lex
import Verif.Spec.Text
import Verif.Spec.MacroParse
import Verif.Proofs.MacroParse

/-!
# Plain source text: the tokens

First the groups: token trees that are read from left to right are the tokens before groups are
formed. Then the lexer: the tokens of plain text are its words and its other characters.
-/

set_option autoImplicit false

namespace Genco.Proofs.TextFile

open Genco Macro Spec.Text Spec.MacroFile

/-! ## Groups -/

variable (C : Compiler)

/-- A token before groups are formed, as a node. -/
def single : Raw → List (Node (List TT))
  | .leaf t => spelledOne t
  | .opening p d => [.tree ⟨C.pos p, ⟨(C.pos p).line, (C.pos p).column + 1⟩⟩ [opener d]]
  | .closing q d => [.tree ⟨⟨(C.pos q).line, (C.pos q).column - 1⟩, C.pos q⟩ [closer d]]

/-- A dollar. -/
def dollarRaw : Raw → Bool
  | .leaf t => dollarIn t
  | _ => false

/-- What the tokens of text are: words that start with a digit are literals, the other words are
identifiers, and the rest is punctuation. -/
def plainLeaf : TT → Bool
  | .ident _ name => name.all nameChar && !name.head?.any Char.isDigit
  | .lit _ text => text.head?.any Char.isDigit
  | .punct _ c _ => !nameChar c
  | _ => false

mutual

def leaves : List TT → Bool
  | [] => true
  | t :: ts => leavesIn t && leaves ts

def leavesIn : TT → Bool
  | .group _ _ content => leaves content
  | t => plainLeaf t

end

def leafRaw : Raw → Bool
  | .leaf t => plainLeaf t
  | _ => true

/-- The brackets match. -/
def paired : List Delimiter → List Raw → Bool
  | st, [] => st.isEmpty
  | st, .leaf _ :: r => paired st r
  | st, .opening _ d :: r => paired (d :: st) r
  | st, .closing _ d :: r =>
    match st with
    | e :: st => d == e && paired st r
    | [] => false

theorem spelled_append (a b : List TT) : spelled (a ++ b) = spelled a ++ spelled b := by
  induction a with
  | nil => rfl
  | cons t a ih => rw [List.cons_append, spelled, spelled, ih, List.append_assoc]

theorem dollars_append (a b : List TT) : dollars (a ++ b) = (dollars a || dollars b) := by
  induction a with
  | nil => simp [dollars]
  | cons t a ih => rw [List.cons_append, dollars, dollars, ih, Bool.or_assoc]

theorem leaves_append (a b : List TT) : leaves (a ++ b) = (leaves a && leaves b) := by
  induction a with
  | nil => simp [leaves]
  | cons t a ih => rw [List.cons_append, leaves, leaves, ih, Bool.and_assoc]

theorem leavesIn_plain {t : TT} (h : plainLeaf t = true) : leavesIn t = true := by
  cases t <;> first | exact h | simp [plainLeaf] at h

def leavesRead : List (Place × Delimiter × List TT) → List TT → Bool
  | [], acc => leaves acc.reverse
  | (_, _, outer) :: st, acc => leavesRead st outer && leaves acc.reverse

theorem leavesRead_cons (st) (t : TT) (acc : List TT) :
    leavesRead st (t :: acc) = (leavesRead st acc && leavesIn t) := by
  have h : leaves (t :: acc).reverse = (leaves acc.reverse && leavesIn t) := by
    rw [List.reverse_cons, leaves_append]
    simp [leaves]
  cases st with
  | nil => exact h
  | cons a st =>
    obtain ⟨p, d, outer⟩ := a
    rw [leavesRead, leavesRead, h, Bool.and_assoc]

theorem trees_leaves (rs : List Raw) : ∀ st acc ts, trees C st acc rs = some ts → leavesRead st acc = true →
    rs.all leafRaw = true → leaves ts = true := by
  induction rs with
  | nil =>
    intro st acc ts h h1 _
    cases st with
    | nil =>
      simp only [trees, List.isEmpty_nil, if_true, Option.some.injEq] at h
      subst h
      exact h1
    | cons a st => simp [trees] at h
  | cons x rs ih =>
    intro st acc ts h h1 h2
    rw [List.all_cons, Bool.and_eq_true] at h2
    cases x with
    | leaf t =>
      rw [trees] at h
      exact ih _ _ _ h (by rw [leavesRead_cons, h1, leavesIn_plain h2.1]; rfl) h2.2
    | opening p d =>
      rw [trees] at h
      exact ih _ _ _ h (by rw [leavesRead, h1]; rfl) h2.2
    | closing q d =>
      cases st with
      | nil => simp [trees] at h
      | cons a st =>
        obtain ⟨p, d', outer⟩ := a
        rw [trees] at h
        split at h
        · rw [leavesRead, Bool.and_eq_true] at h1
          exact ih _ _ _ h (by rw [leavesRead_cons, h1.1, leavesIn, h1.2]; rfl) h2.2
        · simp at h

/-- What has been read. -/
def read : List (Place × Delimiter × List TT) → List TT → List (Node (List TT))
  | [], acc => spelled acc.reverse
  | (p, d, outer) :: st, acc => read st outer ++ single C (.opening p d) ++ spelled acc.reverse

def dollarsRead : List (Place × Delimiter × List TT) → List TT → Bool
  | [], acc => dollars acc.reverse
  | (_, _, outer) :: st, acc => dollarsRead st outer || dollars acc.reverse

theorem read_cons (st) (t : TT) (acc : List TT) : read C st (t :: acc) = read C st acc ++ spelledOne t := by
  have h : spelled (t :: acc).reverse = spelled acc.reverse ++ spelledOne t := by
    rw [List.reverse_cons, spelled_append]
    simp [spelled]
  cases st with
  | nil => exact h
  | cons a st =>
    obtain ⟨p, d, outer⟩ := a
    rw [read, read, h, List.append_assoc, List.append_assoc, List.append_assoc]

theorem dollarsRead_cons (st) (t : TT) (acc : List TT) :
    dollarsRead st (t :: acc) = (dollarsRead st acc || dollarIn t) := by
  have h : dollars (t :: acc).reverse = (dollars acc.reverse || dollarIn t) := by
    rw [List.reverse_cons, dollars_append]
    simp [dollars]
  cases st with
  | nil => exact h
  | cons a st =>
    obtain ⟨p, d, outer⟩ := a
    rw [dollarsRead, dollarsRead, h, Bool.or_assoc]

theorem trees_spelled (rs : List Raw) : ∀ st acc ts, trees C st acc rs = some ts →
    spelled ts = read C st acc ++ rs.flatMap (single C) ∧ dollars ts = (dollarsRead st acc || rs.any dollarRaw) := by
  induction rs with
  | nil =>
    intro st acc ts h
    cases st with
    | nil =>
      simp only [trees, List.isEmpty_nil, if_true, Option.some.injEq] at h
      subst h
      simp [read, dollarsRead]
    | cons a st => simp [trees] at h
  | cons x rs ih =>
    intro st acc ts h
    cases x with
    | leaf t =>
      rw [trees] at h
      obtain ⟨h1, h2⟩ := ih _ _ _ h
      rw [h1, h2, read_cons, dollarsRead_cons]
      simp [single, dollarRaw, Bool.or_assoc]
    | opening p d =>
      rw [trees] at h
      obtain ⟨h1, h2⟩ := ih _ _ _ h
      rw [h1, h2]
      simp [read, dollarsRead, spelled, dollars, dollarRaw]
    | closing q d =>
      cases st with
      | nil => simp [trees] at h
      | cons a st =>
        obtain ⟨p, d', outer⟩ := a
        rw [trees] at h
        split at h
        · rename_i hd
          subst hd
          obtain ⟨h1, h2⟩ := ih _ _ _ h
          rw [h1, h2, read_cons, dollarsRead_cons]
          simp [single, spelledOne, read, dollarsRead, dollarRaw, dollarIn]
        · simp at h

theorem trees_isSome (rs : List Raw) : ∀ st acc, (trees C st acc rs).isSome = paired (st.map (fun a => a.2.1)) rs := by
  induction rs with
  | nil => intro st acc; cases st <;> simp [trees, paired]
  | cons x rs ih =>
    intro st acc
    cases x with
    | leaf t => rw [trees, ih, paired]
    | opening p d => rw [trees, ih, paired]; rfl
    | closing q d =>
      cases st with
      | nil => simp [trees, paired]
      | cons a st =>
        obtain ⟨p, d', outer⟩ := a
        rw [trees, List.map_cons, paired]
        split
        · rename_i hd; subst hd; simp [ih]
        · rename_i hd; simp [hd]

/-! ## The lexer -/

/-- The word that has been begun, as a token. -/
def wordTok (p : Place) : Option (Place × Str) → List Tok
  | some (start, text) => [(⟨C.pos start, C.pos p⟩, text.reverse)]
  | none => []

/-- The tokens of plain text. The word that has been begun is in reverse. -/
def toks (p : Place) (w : Option (Place × Str)) : Str → List Tok
  | [] => wordTok C p w
  | c :: r =>
    if nameChar c then
      toks (p.next c) (match w with
        | some (start, text) => some (start, c :: text)
        | none => some (p, [c])) r
    else wordTok C p w ++ (if blankChar c then [] else [(⟨C.pos p, C.pos (p.next c)⟩, [c])]) ++
      toks (p.next c) none r

def pendingOf : Option (Place × Str) → Pending
  | some (start, text) => .word start text
  | none => .none

/-- A word that has been begun can become a token. -/
def WordOk : Option (Place × Str) → Prop
  | some (_, text) => text.all nameChar = true ∧ ∃ c r, text.reverse = c :: r ∧ (c.isDigit = true → r.all (fun c => c.isDigit || c == '_') = true)
  | none => True

/-- If the word that has been begun is a number. -/
def numberOf : Option (Place × Str) → Option Bool
  | some (_, text) => some (text.reverse.head?.any Char.isDigit)
  | none => none

theorem wordChar_eq (c : Char) : wordChar c = nameChar c := rfl

/-- What the lexer has to know about a plain character that is no part of a word. -/
theorem plain_cases {c : Char} (h : holeChar c = true) (hn : nameChar c = false) :
    (c = ' ' ∨ c = '\n') ∨
    (c.isWhitespace = false ∧ c ≠ '"' ∧ c ≠ '\'' ∧ c ≠ '\n' ∧ blankChar c = false ∧ c.utf8Size = 1 ∧
      ((∃ d, opens c = some d ∧ closerOf c = some (closer d) ∧ c = opener d) ∨
        (∃ d, opens c = none ∧ closes c = some d ∧ closerOf c = none ∧ isCloser c = true ∧ c = closer d) ∨
        (opens c = none ∧ closes c = none ∧ closerOf c = none ∧ isCloser c = false ∧ punctChar c = true))) := by
  simp only [holeChar, plainChar, hn, Bool.false_or, Bool.or_eq_true, beq_iff_eq] at h
  rcases h with (((h | h) | h) | h) | h
  · simp only [symbol, List.contains_eq_mem, decide_eq_true_eq, List.mem_cons, List.not_mem_nil, or_false] at h
    right
    rcases h with h | h | h | h | h | h | h | h | h | h | h | h | h | h | h | h | h | h | h | h <;> subst h <;>
      exact ⟨by decide, by decide, by decide, by decide, by decide, by decide,
        .inr (.inr ⟨rfl, rfl, rfl, rfl, by decide⟩)⟩
  · have : c = '(' ∨ c = '{' ∨ c = '[' := by
      unfold closerOf at h
      split at h <;> simp_all
    right
    rcases this with h | h | h <;> subst h <;>
      exact ⟨by decide, by decide, by decide, by decide, by decide, by decide, .inl ⟨_, rfl, rfl, rfl⟩⟩
  · simp only [isCloser, Bool.or_eq_true, beq_iff_eq] at h
    right
    rcases h with (h | h) | h <;> subst h <;>
      exact ⟨by decide, by decide, by decide, by decide, by decide, by decide,
        .inr (.inl ⟨_, rfl, rfl, rfl, rfl, rfl⟩)⟩
  · left
    simpa [blankChar] using h
  · subst h
    exact .inr ⟨by decide, by decide, by decide, by decide, by decide, by decide,
      .inr (.inr ⟨rfl, rfl, rfl, rfl, by decide⟩)⟩

theorem pos_next {c : Char} (h : c ≠ '\n') (h1 : c.utf8Size = 1) (p : Place) :
    C.pos (p.next c) = ⟨(C.pos p).line, (C.pos p).column + 1⟩ := by
  cases C <;> simp [Compiler.pos, Place.next, h, h1]

theorem nameChar_facts {c : Char} (h : nameChar c = true) : c ≠ ' ' ∧ c ≠ '\n' ∧ c ≠ '$' ∧ c.utf8Size = 1 ∧
    c.isWhitespace = false ∧ closerOf c = none ∧ isCloser c = false ∧ blankChar c = false := by
  have hc : c.val.toNat < 128 ∧ c ≠ ' ' ∧ c ≠ '\n' ∧ c ≠ '$' ∧ c ≠ '\t' ∧ c ≠ '\r' ∧ c ≠ '(' ∧ c ≠ '{' ∧ c ≠ '[' ∧
      c ≠ ')' ∧ c ≠ '}' ∧ c ≠ ']' := by
    simp only [nameChar, Bool.or_eq_true, beq_iff_eq] at h
    rcases h with h | h
    · refine ⟨?_, ?_⟩
      · simp only [Char.isAlphanum, Char.isAlpha, Char.isUpper, Char.isLower, Char.isDigit, Bool.or_eq_true,
          Bool.and_eq_true, decide_eq_true_eq, ge_iff_le, UInt32.le_iff_toNat_le] at h
        have e : c.val.toNat ≤ 122 := by
          rcases h with (h | h) | h
          · exact Nat.le_trans h.2 (by decide)
          · exact Nat.le_trans h.2 (by decide)
          · exact Nat.le_trans h.2 (by decide)
        omega
      · refine ⟨?_, ?_, ?_, ?_, ?_, ?_, ?_, ?_, ?_, ?_, ?_⟩ <;> (rintro rfl; revert h; decide)
    · subst h; decide
  obtain ⟨h0, h1, h2, h3, h4, h5, h6, h7, h8, h9, h10, h11⟩ := hc
  refine ⟨h1, h2, h3, ?_, ?_, ?_, ?_, ?_⟩
  · unfold Char.utf8Size
    rw [if_pos]
    rw [UInt32.le_iff_toNat_le]
    exact Nat.le_of_lt_succ h0
  · simp [Char.isWhitespace, h1, h2, h4, h5]
  · unfold closerOf; split <;> simp_all
  · simp [isCloser, h9, h10, h11]
  · simp [blankChar, h1, h2]

theorem nested_cons (due : List Char) (c : Char) (r : Str) : nested due (c :: r) = match closerOf c with
    | some e => nested (e :: due) r
    | none =>
      if isCloser c then
        match due with
        | e :: due => c == e && nested due r
        | [] => false
      else nested due r := by
  rw [nested.eq_def]
  simp only
  cases closerOf c with
  | some e => rfl
  | none => cases due <;> rfl

/-- A plain character that is no part of a word, where no token has been begun. -/
theorem lex_fresh {c : Char} (h : holeChar c = true) (hn : nameChar c = false) (p : Place) (rest : Str)
    (hc : c = '/' → rest.head? ≠ some '/' ∧ rest.head? ≠ some '*') :
    ∃ out, lexFresh C p c rest = some (out, .none) ∧
      out.flatMap (single C) = tokens (if blankChar c then [] else [(⟨C.pos p, C.pos (p.next c)⟩, [c])]) ∧
      out.any dollarRaw = (c == '$') ∧ out.all leafRaw = true ∧
      ∀ rs s, (∀ st, paired st rs = nested (st.map closer) s) →
        ∀ st, paired st (out ++ rs) = nested (st.map closer) (c :: s) := by
  rcases plain_cases h hn with hb | ⟨h1, h2, h3, h4, h6, h7, hk⟩
  · refine ⟨[], ?_, ?_, ?_, rfl, fun rs s hs st => ?_⟩
    · rcases hb with rfl | rfl <;> rfl
    · rcases hb with rfl | rfl <;> rfl
    · rcases hb with rfl | rfl <;> rfl
    · rcases hb with rfl | rfl <;> exact hs st
  · have hcm : ¬(startsComment (c :: rest) = true) := by
      intro h
      unfold startsComment at h
      split at h
      · rename_i e
        cases e
        exact (hc rfl).1 rfl
      · rename_i e
        cases e
        exact (hc rfl).2 rfl
      · cases h
    have hp := pos_next C h4 h7 p
    have hl : lexFresh C p c rest = match opens c, closes c with
        | some d, _ => some ([.opening p d], .none)
        | none, some d => some ([.closing (p.next c) d], .none)
        | none, none =>
          if punctChar c then
            some ([.leaf (.punct ⟨C.pos p, C.pos (p.next c)⟩ c
              (!startsComment rest && rest.head?.any punctChar))], .none)
          else none := by
      rw [lexFresh, if_neg (by simp [h1]), if_neg (by simp [wordChar_eq, hn]), if_neg h2, if_neg h3, if_neg hcm]
      cases opens c <;> cases closes c <;> rfl
    rw [hl, h6]
    rcases hk with ⟨d, k1, k2, k3⟩ | ⟨d, k1, k2, k3, k4, k5⟩ | ⟨k1, k2, k3, k4, k5⟩
    · refine ⟨[.opening p d], by rw [k1], ?_, by rw [k3]; cases d <;> rfl, rfl, fun rs s hs st => ?_⟩
      · simp [single, tokens, hp, ← k3]
      · simp only [List.cons_append, List.nil_append]
        rw [paired, nested_cons, k2, hs]
        rfl
    · refine ⟨[.closing (p.next c) d], by rw [k1, k2], ?_, by rw [k5]; cases d <;> rfl, rfl, fun rs s hs st => ?_⟩
      · simp [single, tokens, hp, ← k5]
      · simp only [List.cons_append, List.nil_append]
        rw [nested_cons, k3]
        simp only [k4, if_true]
        cases st with
        | nil => rfl
        | cons e st =>
          rw [paired, List.map_cons]
          simp only
          rw [hs, k5]
          congr 1
          cases d <;> cases e <;> rfl
    · refine ⟨[.leaf (.punct ⟨C.pos p, C.pos (p.next c)⟩ c
        (!startsComment rest && rest.head?.any punctChar))], ?_, ?_, ?_, ?_, fun rs s hs st => ?_⟩
      · rw [k1, k2]
        simp [k5]
      · simp [single, spelledOne, tokens]
      · simp [dollarRaw, dollarIn]
      · simp [leafRaw, plainLeaf, hn]
      · simp only [List.cons_append, List.nil_append]
        rw [paired, nested_cons, k3]
        simp only [k4, Bool.false_eq_true, if_false]
        exact hs st

theorem numberRest_digits (r : Str) (h : r.all (fun c => c.isDigit || c == '_') = true) : numberRest r = true := by
  have : r.dropWhile (fun c => c.isDigit || c == '_') = [] := by
    induction r with
    | nil => rfl
    | cons c r ih =>
      simp only [List.all_cons, Bool.and_eq_true] at h
      rw [List.dropWhile_cons, if_pos h.1]
      exact ih h.2
  simp [numberRest, this]

/-- The word that has been begun. -/
theorem word_ok (p : Place) {start : Place} {text : Str} (h : WordOk (some (start, text))) :
    ∃ t, wordToken C start p text = some (.leaf t) ∧ spelledOne t = tokens (wordTok C p (some (start, text))) ∧
      dollarIn t = false ∧ plainLeaf t = true := by
  obtain ⟨h0, c, r, h1, h2⟩ := h
  unfold wordToken
  rw [h1]
  by_cases hd : c.isDigit = true
  · simp only [hd, if_true, numberRest_digits r (h2 hd)]
    exact ⟨_, rfl, by simp [spelledOne, tokens, wordTok, h1], rfl, by simp [plainLeaf, hd]⟩
  · simp only [hd]
    refine ⟨_, rfl, by simp [spelledOne, tokens, wordTok, h1], rfl, ?_⟩
    rw [plainLeaf, ← h1, List.all_reverse, h0]
    simp [h1, hd]

theorem tokens_append {E : Type} (a b : List Tok) :
    (tokens (a ++ b) : List (Node E)) = tokens a ++ tokens b := List.map_append ..

theorem apart_cons {c : Char} {r : Str} (h : Spec.Text.apart (c :: r) = true) : Spec.Text.apart r = true ∧
    (c = '/' → r.head? ≠ some '/' ∧ r.head? ≠ some '*') ∧ (nameChar c = true → r.head? ≠ some '#') := by
  cases r with
  | nil => simp [Spec.Text.apart]
  | cons b r =>
    simp only [Spec.Text.apart, Bool.and_eq_true, Bool.not_eq_true', Bool.and_eq_false_iff, beq_eq_false_iff_ne,
      Bool.or_eq_false_iff] at h
    obtain ⟨⟨h1, h2⟩, h3⟩ := h
    refine ⟨h3, fun hc => ?_, fun hc => ?_⟩
    · rcases h1 with h1 | h1
      · exact absurd hc h1
      · simpa using h1
    · rcases h2 with h2 | h2
      · rw [hc] at h2; cases h2
      · simpa using h2

theorem lex_toks (s : Str) : ∀ (p : Place) (w : Option (Place × Str)), s.all holeChar = true →
    Spec.Text.apart s = true → Spec.Text.numbers (numberOf w) s = true → WordOk w →
    (w ≠ none → s.head? ≠ some '#') →
    ∃ rs, lexFrom C p (pendingOf w) s = some rs ∧ rs.flatMap (single C) = tokens (toks C p w s) ∧
      rs.any dollarRaw = s.contains '$' ∧ rs.all leafRaw = true ∧ ∀ st, paired st rs = nested (st.map closer) s := by
  induction s with
  | nil =>
    intro p w _ _ _ hw _
    cases w with
    | none => exact ⟨[], rfl, rfl, rfl, rfl, fun st => by cases st <;> rfl⟩
    | some w =>
      obtain ⟨start, text⟩ := w
      obtain ⟨t, h1, h2, h3, h5⟩ := word_ok C p hw
      refine ⟨[.leaf t], ?_, ?_, ?_, ?_, fun st => ?_⟩
      · simp [pendingOf, lexFrom, h1]
      · simp [single, h2, toks]
      · simp [dollarRaw, h3]
      · simp [leafRaw, h5]
      · rw [paired]; cases st <;> rfl
  | cons c r ih =>
    intro p w hpl ha hn hw hh
    rw [List.all_cons, Bool.and_eq_true] at hpl
    obtain ⟨a1, a2, a3⟩ := apart_cons ha
    by_cases hc : nameChar c = true
    · obtain ⟨f1, f2, f3, f4, f5, f6, f7, f8⟩ := nameChar_facts hc
      have key : ∀ w' : Option (Place × Str), w' ≠ none → lexStep C p c r (pendingOf w) = some ([], pendingOf w') →
          Spec.Text.numbers (numberOf w') r = true → WordOk w' →
          toks C p w (c :: r) = toks C (p.next c) w' r →
          ∃ rs, lexFrom C p (pendingOf w) (c :: r) = some rs ∧ rs.flatMap (single C) = tokens (toks C p w (c :: r)) ∧
            rs.any dollarRaw = (c :: r).contains '$' ∧ rs.all leafRaw = true ∧
            ∀ st, paired st rs = nested (st.map closer) (c :: r) := by
        intro w' hne hs hn' hw' ht
        obtain ⟨rs, h1, h2, h3, h5, h4⟩ := ih (p.next c) w' hpl.2 a1 hn' hw' (fun _ => a3 hc)
        refine ⟨rs, ?_, ?_, by rw [h3]; simp [Ne.symm f3], h5, fun st => ?_⟩
        · rw [lexFrom, hs]
          simp [h1]
        · rw [h2, ht]
        · rw [h4, nested_cons, f6]
          simp [f7]
      cases w with
      | none =>
        refine key (some (p, [c])) (by simp) ?_ ?_ ?_ ?_
        · simp [pendingOf, lexStep, lexFresh, f5, wordChar_eq, hc]
        · simp only [numberOf, Spec.Text.numbers, hc, if_true] at hn
          simpa [numberOf] using hn
        · exact ⟨by simp [hc], c, [], rfl, fun _ => rfl⟩
        · rw [toks, if_pos hc]
      | some w =>
        obtain ⟨start, text⟩ := w
        obtain ⟨k0, d, t, k1, k2⟩ := hw
        simp only [numberOf, k1, Spec.Text.numbers, hc, if_true, Bool.and_eq_true] at hn
        refine key (some (start, c :: text)) (by simp) ?_ ?_ ?_ ?_
        · simp [pendingOf, lexStep, wordChar_eq, hc]
        · simpa [numberOf, k1] using hn.2
        · refine ⟨by rw [List.all_cons, hc, k0]; rfl, d, t ++ [c], by simp [k1], fun hd => ?_⟩
          have := hn.1
          simp only [List.head?_cons, Option.any_some, hd, Bool.not_true, Bool.false_or] at this
          rw [List.all_append, k2 hd]
          simpa using this
        · rw [toks, if_pos hc]
    · have hc' : nameChar c = false := by simpa using hc
      obtain ⟨out, o1, o2, o3, o5, o4⟩ := lex_fresh C hpl.1 hc' p r a2
      have hn' : Spec.Text.numbers none r = true := by
        cases w with
        | none => simpa [numberOf, Spec.Text.numbers, hc'] using hn
        | some w => simpa [numberOf, Spec.Text.numbers, hc'] using hn
      obtain ⟨rs, h1, h2, h3, h5, h4⟩ := ih (p.next c) none hpl.2 a1 hn' trivial (fun h => absurd rfl h)
      have h1' : lexFrom C (p.next c) .none r = some rs := h1
      cases w with
      | none =>
        refine ⟨out ++ rs, ?_, ?_, ?_, by rw [List.all_append, o5, h5]; rfl, o4 rs r h4⟩
        · rw [lexFrom]
          simp [pendingOf, lexStep, o1, h1']
        · rw [List.flatMap_append, o2, h2, toks, if_neg hc, tokens_append, tokens_append]
          simp [wordTok, tokens]
        · rw [List.any_append, o3, h3, List.contains_cons, Bool.beq_comm]
      | some w =>
        obtain ⟨start, text⟩ := w
        obtain ⟨t, k1, k2, k3, k4⟩ := word_ok C p hw
        have hx : ¬(c = '#' ∨ c = '"' ∨ c = '\'') := by
          rintro (e | e | e)
          · exact hh (by simp) (by simp [e])
          · subst e; revert hpl; simp [show holeChar '"' = false by decide]
          · subst e; revert hpl; simp [show holeChar '\'' = false by decide]
        refine ⟨.leaf t :: (out ++ rs), ?_, ?_, ?_, by simp [leafRaw, k4, o5, h5], fun st => ?_⟩
        · rw [lexFrom, pendingOf, lexStep, if_neg (by simp [wordChar_eq, hc']), if_neg hx, k1, o1]
          simp [h1']
        · rw [List.flatMap_cons, List.flatMap_append, o2, h2, toks, if_neg hc, tokens_append, tokens_append,
            ← k2, List.append_assoc]
          rfl
        · rw [List.any_cons, List.any_append, o3, h3, List.contains_cons, Bool.beq_comm]
          simp [dollarRaw, k3]
        · rw [paired]
          exact o4 rs r h4 st

theorem hole_of_plain {s : Str} (h : s.all plainChar = true) : s.all holeChar = true := by
  rw [List.all_eq_true] at h ⊢
  intro c hc
  simp [holeChar, h c hc]

/-- Text without strings and comments is lexed, if its brackets match. -/
theorem lex_holes (p : Place) {s : Str} (hc : s.all holeChar = true) (ha : Spec.Text.apart s = true)
    (hm : Spec.Text.numbers none s = true) :
    (nested [] s = true → ∃ ts, lex C p s = some ts ∧ spelled ts = tokens (toks C p none s) ∧
      dollars ts = s.contains '$' ∧ leaves ts = true) ∧
    (nested [] s = false → lex C p s = none) := by
  obtain ⟨rs, h1, h2, h3, h6, h4⟩ := lex_toks C s p none hc ha hm trivial (fun h => absurd rfl h)
  have h1' : lexFrom C p .none s = some rs := h1
  have h5 := trees_isSome C rs [] []
  rw [List.map_nil, h4 [], List.map_nil] at h5
  have hl : lex C p s = trees C [] [] rs := by simp [lex, h1']
  rw [hl]
  constructor
  · intro hn
    rw [hn, Option.isSome_iff_exists] at h5
    obtain ⟨ts, ht⟩ := h5
    obtain ⟨k1, k2⟩ := trees_spelled C rs [] [] ts ht
    refine ⟨ts, ht, ?_, ?_, trees_leaves C rs [] [] ts ht rfl h6⟩
    · rw [k1, h2]; rfl
    · rw [k2, h3]; rfl
  · intro hn
    rw [hn] at h5
    simpa using h5

/-- Plain text is lexed, if its brackets match. -/
theorem lex_plain (p : Place) {s : Str} (h : Plain s) :
    (nested [] s = true → ∃ ts, lex C p s = some ts ∧ spelled ts = tokens (toks C p none s) ∧ dollars ts = false) ∧
    (nested [] s = false → lex C p s = none) := by
  obtain ⟨h1, h2⟩ := lex_holes C p (hole_of_plain h.chars) h.apart h.numbers
  refine ⟨fun hn => ?_, h2⟩
  obtain ⟨ts, k1, k2, k3, -⟩ := h1 hn
  refine ⟨ts, k1, k2, ?_⟩
  rw [k3, List.contains_eq_mem, decide_eq_false_iff_not]
  intro hm
  have := List.all_eq_true.1 h.chars '$' hm
  revert this
  decide

end Genco.Proofs.TextFile
