import Verif.Spec.Interp
import Verif.Proofs.Found

/-!
# Reading strings with evaluations back
-/

set_option autoImplicit false

namespace Genco

open Spec

variable {ι : Type}

/-- Some elements of the source, one after another. -/
inductive Scan (D : Dialect) : List Inside → Str → List Sign → List Inside → Str → Prop
  | refl (ms : List Inside) (s : Str) : Scan D ms s [] ms s
  | step {ms ms' ms'' : List Inside} {s r t : Str} {o o' : List Sign} :
    D.read ms s = some (o, ms', r) → r.length < s.length → Scan D ms' r o' ms'' t →
    Scan D ms s (o ++ o') ms'' t

theorem Scan.one {D : Dialect} {ms ms' : List Inside} {s r : Str} {o : List Sign}
    (h : D.read ms s = some (o, ms', r)) (hl : r.length < s.length) : Scan D ms s o ms' r := by
  have := Scan.step h hl (.refl ms' r)
  rwa [List.append_nil] at this

theorem Scan.trans {D : Dialect} {a b c : List Inside} {s t u : Str} {x y : List Sign}
    (h : Scan D a s x b t) (h' : Scan D b t y c u) : Scan D a s (x ++ y) c u := by
  induction h with
  | refl => exact h'
  | step h1 h2 _ ih => rw [List.append_assoc]; exact .step h1 h2 (ih h')

theorem Scan.readAll {D : Dialect} {ms ms' : List Inside} {s t : Str} {o : List Sign}
    (h : Scan D ms s o ms' t) (hm : ms' = []) (ht : t = []) (fuel : Nat) (hf : s.length ≤ fuel) :
    D.readAll fuel ms s = some o := by
  induction h generalizing fuel with
  | refl => subst hm; subst ht; cases fuel <;> rfl
  | @step ms ms' ms'' s r t o o' h1 h2 _ ih =>
    cases s with
    | nil => simp at h2
    | cons c s =>
      cases fuel with
      | zero => simp at hf
      | succ fuel =>
        rw [Dialect.readAll.eq_def]
        simp only [h1]
        rw [ih hm ht fuel (by simp only [List.length_cons] at hf h2; omega)]
        rfl

/-- Code is inside of nothing or of an evaluation. -/
def InCode (ms : List Inside) : Prop := ∀ d ms', ms ≠ .str d :: ms'

/-- What is assumed of the dialect. -/
structure Sane (D : Dialect) : Prop where
  quotes : ∀ e, D.delim e ∈ D.quotes
  plain : ∀ c ∈ D.quotes, c.isWhitespace = false ∧ c ≠ '{' ∧ c ≠ '}' ∧ c ≠ '$' ∧ namePart c = false

theorem fits_quotes {D : Dialect} {s : Str} {ms ms' : List Inside} (h : D.fits s ms = some ms') :
    ∀ c ∈ s, c ∉ D.quotes := by
  unfold Dialect.fits at h
  split at h <;> split at h
  · rename_i hq; simpa using hq
  · simp at h
  · rename_i hq; simpa using hq
  · simp at h

theorem codes_append (a b : Str) : codes (a ++ b) = codes a ++ codes b := by simp [codes]

theorem readCode_quiet {D : Dialect} (hD : Sane D) {c : Char} (h : c ∉ D.quotes) (ms : List Inside) :
    D.readCode ms c = some (codes [c], ms) := by
  unfold Dialect.readCode
  rw [if_neg, if_neg h]
  rintro (rfl | rfl)
  · exact h (hD.quotes _)
  · exact h (hD.quotes _)

theorem braces_cons (n : Nat) (c : Char) (r : Str) : braces n (c :: r) =
    if c = '{' then braces (n + 1) r
    else if c = '}' then (match n with | 0 => none | n + 1 => braces n r)
    else braces n r := by
  by_cases h1 : c = '{'
  · subst h1; simp [braces]
  by_cases h2 : c = '}'
  · subst h2; cases n <;> simp [braces]
  rw [if_neg h1, if_neg h2, braces]
  · intro h; exact h1 h
  · intro _ h; exact h2 h
  · intro _ _ h; exact h2 h

theorem scan_eval {D : Dialect} (hD : Sane D) (s : Str) (hq : ∀ c ∈ s, c ∉ D.quotes) (n m : Nat)
    (ms : List Inside) (h : braces n s = some m) (rest : Str) :
    Scan D (.eval n :: ms) (s ++ rest) (codes s) (.eval m :: ms) rest := by
  induction s generalizing n with
  | nil =>
    simp only [braces, Option.some.injEq] at h
    subst h
    exact .refl _ _
  | cons c s ih =>
    have hq' : ∀ c ∈ s, c ∉ D.quotes := fun d hd => hq d (by simp [hd])
    rw [braces_cons] at h
    rw [show c :: s = [c] ++ s from rfl, codes_append, List.append_assoc]
    by_cases h1 : c = '{'
    · rw [if_pos h1] at h
      subst h1
      refine .step ?_ (Nat.lt_succ_self _) (ih hq' _ h)
      simp [Dialect.read]
      decide
    rw [if_neg h1] at h
    by_cases h2 : c = '}'
    · rw [if_pos h2] at h
      subst h2
      cases n with
      | zero => simp at h
      | succ n =>
        refine .step ?_ (Nat.lt_succ_self _) (ih hq' _ h)
        simp [Dialect.read]
        decide
    rw [if_neg h2] at h
    refine .step ?_ (Nat.lt_succ_self _) (ih hq' _ h)
    rw [List.singleton_append]
    simp only [Dialect.read]
    rw [if_neg h1, if_neg h2, readCode_quiet hD (hq c (by simp))]
    rfl

theorem scan_top {D : Dialect} (hD : Sane D) (s : Str) (hq : ∀ c ∈ s, c ∉ D.quotes) (rest : Str) :
    Scan D [] (s ++ rest) (codes s) [] rest := by
  induction s with
  | nil => exact .refl _ _
  | cons c s ih =>
    rw [show c :: s = [c] ++ s from rfl, codes_append, List.append_assoc]
    refine .step ?_ (Nat.lt_succ_self _) (ih fun d hd => hq d (by simp [hd]))
    rw [List.singleton_append]
    simp only [Dialect.read]
    rw [readCode_quiet hD (hq c (by simp))]
    rfl

theorem scan_code {D : Dialect} (hD : Sane D) {s : Str} {ms ms' : List Inside} (hc : InCode ms)
    (h : D.fits s ms = some ms') (rest : Str) : Scan D ms (s ++ rest) (codes s) ms' rest := by
  have hq := fits_quotes h
  have hall : s.all (fun c => decide (c ∉ D.quotes)) = true := by simpa using hq
  cases ms with
  | nil =>
    simp only [Dialect.fits, hall, if_true, Option.some.injEq] at h
    subst h
    exact scan_top hD s hq rest
  | cons m ms =>
    cases m with
    | str d => exact absurd rfl (hc d ms)
    | eval n =>
      simp only [Dialect.fits, hall, if_true, Option.map_eq_some_iff] at h
      obtain ⟨k, h, rfl⟩ := h
      exact scan_eval hD s hq n k ms h rest

theorem fits_white {D : Dialect} (hD : Sane D) {w : Str} (hw : ∀ c ∈ w, c.isWhitespace = true)
    {ms : List Inside} : D.fits w ms = some ms ∧ codes w = [] := by
  have hq : w.all (fun c => decide (c ∉ D.quotes)) = true := by
    simp only [List.all_eq_true, decide_eq_true_eq]
    intro c hc hm
    exact absurd (hw c hc) (by simp [(hD.plain c hm).1])
  have hb : ∀ n, braces n w = some n := by
    intro n
    clear hq
    induction w with
    | nil => rfl
    | cons c w ih =>
      have := hw c (by simp)
      rw [braces_cons, if_neg, if_neg]
      · exact ih fun d hd => hw d (by simp [hd])
      · rintro rfl; exact absurd this (by decide)
      · rintro rfl; exact absurd this (by decide)
  constructor
  · unfold Dialect.fits
    split
    · rw [if_pos hq, hb]; rfl
    · rw [if_pos hq]
  · simp only [codes, List.map_eq_nil_iff, List.filter_eq_nil_iff]
    intro c hc; simp [hw c hc]

theorem white_chunks {buf : Str} (h : ∀ c ∈ buf, c.isWhitespace = true) (fuel n : Nat) :
    ∀ c ∈ (chunks buf fuel n).flatten, c.isWhitespace = true := by
  induction fuel generalizing n with
  | zero => simp [chunks]
  | succ fuel ih =>
    simp only [chunks]
    split
    · intro c hc
      rw [List.flatten_cons, List.mem_append] at hc
      rcases hc with hx | hx
      · exact h c (List.mem_of_mem_take hx)
      · exact ih _ c hx
    · simp

theorem white_flush (cfg : Config) (hn : ∀ c ∈ cfg.newline, c.isWhitespace = true) (st : LSt) :
    ∀ c ∈ evText cfg.newline (flushEv cfg st), c.isWhitespace = true := by
  have hS : ∀ c ∈ SPACES, c.isWhitespace = true := by
    intro c hc; simp [SPACES] at hc; subst hc; rfl
  have hT : ∀ c ∈ TABS, c.isWhitespace = true := by
    intro c hc; simp [TABS] at hc; subst hc; rfl
  have hl : ∀ n, ∀ c ∈ evText cfg.newline (List.replicate n .line), c.isWhitespace = true := by
    intro n
    induction n with
    | zero => simp [evText]
    | succ n ih =>
      intro c
      rw [List.replicate_succ, evText, List.mem_append]; rintro (h | h); exacts [hn c h, ih c h]
  intro c
  unfold flushEv
  split
  · rw [evText_append, List.mem_append]
    rintro (h | h)
    · exact hl _ c h
    · split at h
      · rw [evText_strs] at h; exact white_chunks hS _ _ c h
      · rw [evText_append, evText_strs, evText_strs, List.mem_append] at h
        rcases h with h | h
        · exact white_chunks hT _ _ c h
        · exact white_chunks hS _ _ c h
  · rw [evText_strs]; exact white_chunks hS _ _ c

/-- A text of code, with the whitespace that is written before it. -/
theorem scan_text {D : Dialect} (hD : Sane D) (cfg : Config) (hn : ∀ c ∈ cfg.newline, c.isWhitespace = true)
    (st : LSt) {s : Str} {ms ms' : List Inside} (hc : InCode ms) (h : D.fits s ms = some ms') (rest : Str) :
    Scan D ms (evText cfg.newline (actEv cfg st (.text s)) ++ rest) (codes s) ms' rest := by
  simp only [actEv]
  split
  · rw [evText_append, List.append_assoc]
    have hw := fits_white hD (white_flush cfg hn st) (ms := ms)
    have := (scan_code hD hc hw.1 (evText cfg.newline [Ev.str s] ++ rest)).trans
      (by simpa [evText] using scan_code hD hc h rest)
    rwa [hw.2, List.nil_append] at this
  · rename_i hs
    have hs : s = [] := by simpa using hs
    subst hs
    have := (fits_white hD (w := []) (by simp) (ms := ms)).1
    rw [this] at h
    simp only [Option.some.injEq] at h
    subst h
    exact .refl _ _

/-- The language writes the strings of the dialect. -/
structure Strung (D : Dialect) (L : Lang ι) (esc : Char → Str) : Prop where
  sane : Sane D
  opens : ∀ e, (L.openQuote e).flatten = [D.delim e]
  closes : ∀ e, (L.closeQuote e).flatten = [D.delim e]
  escapes : ∀ s, L.writeQuoted s = s.map esc
  start : L.startEval.flatten = ['$', '{']
  stop : L.endEval.flatten = ['}']
  long : D.short = false → ∀ s, L.evalLiteral s = L.startEval ++ [s] ++ L.endEval
  short : D.short = true → ∀ s, (L.evalLiteral s).flatten = '$' :: s
  heads : ∀ c, (esc c).head? = some '\\' ∨ (esc c).head? = some c
  reads : ∀ e t ms x rest, D.good (D.delim e) t = true → x = D.delim e ∨ x = '$' →
    Scan D (.str (D.delim e) :: ms) (t.flatMap esc ++ x :: rest) (unitsOf t) (.str (D.delim e) :: ms) (x :: rest)

/-- The frames of the formatter inside of evaluations and strings. -/
inductive Framed (D : Dialect) : List Inside → List Frame → Prop
  | top : Framed D [] [Frame.default]
  | str {ms : List Inside} {f : Frame} {fs : List Frame} {e : Bool} :
    Framed D ms (f :: fs) → InCode ms → f.inQuote = false → f.hasEval = false →
    Framed D (.str (D.delim e) :: ms) ({ f with hasEval := e, inQuote := true } :: fs)
  | eval {d : Char} {ms : List Inside} {fs : List Frame} {n : Nat} :
    Framed D (.str d :: ms) fs → Framed D (.eval n :: .str d :: ms) (⟨false, false, true⟩ :: fs)

theorem framed_fits {D : Dialect} {s : Str} {ms ms' : List Inside} {fs : List Frame} (h : Framed D ms fs)
    (hc : InCode ms) (hf : D.fits s ms = some ms') : Framed D ms' fs ∧ InCode ms' := by
  cases h with
  | top =>
    simp only [Dialect.fits] at hf
    split at hf
    · simp only [Option.some.injEq] at hf; subst hf; exact ⟨.top, hc⟩
    · simp at hf
  | str => exact absurd rfl (hc _ _)
  | eval h =>
    simp only [Dialect.fits] at hf
    split at hf
    · rw [Option.map_eq_some_iff] at hf
      obtain ⟨k, -, rfl⟩ := hf
      exact ⟨.eval h, fun d ms e => by simp at e⟩
    · simp at hf

theorem framed_code {D : Dialect} {ms : List Inside} {fs : List Frame} (h : Framed D ms fs) (hc : InCode ms) :
    ∃ f fs', fs = f :: fs' ∧ f.inQuote = false ∧ f.hasEval = false := by
  cases h with
  | top => exact ⟨_, _, rfl, rfl, rfl⟩
  | str => exact absurd rfl (hc _ _)
  | eval h => exact ⟨_, _, rfl, rfl, rfl⟩

/-- How the rest of a string begins. -/
theorem string_head {D : Dialect} {L : Lang ι} {esc : Char → Str} (hL : Strung D L esc) (cfg : Config)
    (fi : ι → List Str) (items : List (Item ι)) (e : Bool) (ms : List Inside) (f : Frame) (fs : List Frame)
    (hf : f.inQuote = true) (he : f.hasEval = e) (t : Str) (l : List Sign)
    (h : D.signs fi (.str (D.delim e) :: ms) t items = some l) (st : LSt) :
    ∃ (txt : Str) (x : Char) (rest : Str), evText cfg.newline (actsEv cfg st.flushed (res L cfg false (f :: fs) items).1) =
      txt.flatMap esc ++ x :: rest ∧ (x = D.delim e ∨ x = '$') ∧ txt.head? = follows items := by
  induction items generalizing t l with
  | nil => simp [Dialect.signs] at h
  | cons i items ih =>
    cases i with
    | literal s =>
      simp only [Dialect.signs] at h
      obtain ⟨txt, x, rest, h1, h2, h3⟩ := ih _ _ h
      refine ⟨s.text ++ txt, x, rest, ?_, h2, ?_⟩
      · rw [res_cons]
        simp only [hf, if_true, pre]
        rw [actsEv_append, evText_append, actsSt_texts, evText_texts, (evText_flushed _ _ _).1,
          (evText_flushed cfg _ _).2, h1, hL.escapes, List.flatMap_append, List.append_assoc]
        rfl
      · simp only [follows]
        split
        · rename_i hs; rw [hs]; exact h3
        · rename_i hs
          rw [List.head?_append]
          cases ht : s.text with
          | nil => exact absurd ht hs
          | cons c r => rfl
    | register p i =>
      simp only [Dialect.signs] at h
      rw [res_cons]
      exact ih _ _ h
    | closeQuote =>
      refine ⟨[], D.delim e, ?_, ?_, .inl rfl, rfl⟩
      rotate_left
      · rw [res_cons]
        simp only [hf, if_true, pre]
        rw [if_neg (by simp), he]
        simp only
        rw [actsEv_append, evText_append, evText_texts, (evText_flushed _ _ _).1, hL.closes]
        rfl
    | openEval =>
      have key : ∀ (l : List Str) (p : List Act × Option (List (Item ι))) (y : Str), l.flatten = '$' :: y →
          ∃ (txt : Str) (x : Char) (rest : Str), evText cfg.newline (actsEv cfg st.flushed (pre (texts l) p).1) =
            txt.flatMap esc ++ x :: rest ∧ (x = D.delim e ∨ x = '$') ∧
            txt.head? = follows (Item.openEval :: items) := by
        intro l p y hl
        refine ⟨[], '$', ?_, ?_, .inr rfl, rfl⟩
        rotate_left
        simp only [pre]
        rw [actsEv_append, evText_append, evText_texts, (evText_flushed _ _ _).1, hl]
        rfl
      rw [res_cons]
      simp only [hf, if_true]
      split
      · rename_i s r'
        cases hs : D.short with
        | true => exact key _ _ _ (hL.short hs _)
        | false => exact key _ _ ('{' :: s.text ++ ['}']) (by rw [hL.long hs]; simp [hL.start, hL.stop])
      · exact key _ _ _ hL.start
    | _ => simp [Dialect.signs] at h

theorem takeWhile_append_neg {p : Char → Bool} {a : Str} (ha : a.all p = true) {b : Str}
    (hb : ∀ c, b.head? = some c → p c = false) : (a ++ b).takeWhile p = a ∧ (a ++ b).dropWhile p = b := by
  induction a with
  | nil =>
    cases b with
    | nil => exact ⟨rfl, rfl⟩
    | cons c b => simp [hb c rfl]
  | cons c a ih =>
    simp only [List.all_cons, Bool.and_eq_true] at ha
    simp [ha.1, ih ha.2]

theorem namePart_of_start {c : Char} (h : nameStart c = true) : namePart c = true := by
  simp only [nameStart, namePart, Char.isAlphanum, Bool.or_eq_true] at h ⊢
  rcases h with h | h
  · exact .inl (.inl h)
  · exact .inr h

theorem isName_all {s : Str} (h : isName s = true) : s ≠ [] ∧ s.all namePart = true ∧
    s.head?.any nameStart = true := by
  cases s with
  | nil => simp [isName] at h
  | cons c r =>
    simp only [isName, Bool.and_eq_true] at h
    refine ⟨by simp, ?_, h.1⟩
    rw [List.all_cons, namePart_of_start h.1, h.2]; rfl

theorem name_white {s : Str} (h : s.all namePart = true) : codes s = s.map .code := by
  unfold codes
  rw [List.filter_eq_self.2]
  intro c hc
  have := List.all_eq_true.1 h c hc
  cases hw : c.isWhitespace with
  | false => rfl
  | true =>
    exfalso
    simp only [Char.isWhitespace, Bool.or_eq_true, decide_eq_true_eq] at hw
    rcases hw with ((rfl | rfl) | rfl) | rfl <;> exact absurd this (by decide)

theorem name_fits {D : Dialect} (hD : Sane D) {s : Str} {ms : List Inside} (hs : s.all namePart = true) :
    D.fits s (.eval 0 :: ms) = some (.eval 0 :: ms) := by
  have hq : s.all (fun c => decide (c ∉ D.quotes)) = true := by
    rw [List.all_eq_true] at hs ⊢
    intro c hc
    rw [decide_eq_true_eq]
    intro hm
    exact absurd (hs c hc) (by simp [(hD.plain c hm).2.2.2.2])
  have hb : ∀ n, braces n s = some n := by
    intro n
    clear hq
    induction s with
    | nil => rfl
    | cons c s ih =>
      simp only [List.all_cons, Bool.and_eq_true] at hs
      rw [braces_cons, if_neg, if_neg]
      · exact ih hs.2
      · rintro rfl; exact absurd hs.1 (by decide)
      · rintro rfl; exact absurd hs.1 (by decide)
  simp only [Dialect.fits]
  rw [if_pos hq, hb]
  rfl

/-- A single character between code, with the whitespace that is written before it. -/
theorem scan_char {D : Dialect} (hD : Sane D) (cfg : Config) (hn : ∀ c ∈ cfg.newline, c.isWhitespace = true)
    (st : LSt) {c : Char} {ms ms' : List Inside} (hc : InCode ms) {o : List Sign} (rest : Str)
    (h : D.read ms (c :: rest) = some (o, ms', rest)) :
    Scan D ms (evText cfg.newline (actEv cfg st (.text [c])) ++ rest) o ms' rest := by
  have hw := fits_white hD (white_flush cfg hn st) (ms := ms)
  have := (scan_code hD hc hw.1 (c :: rest)).trans (.one h (by simp))
  rw [hw.2, List.nil_append] at this
  simpa [actEv, evText_append, evText] using this

theorem read_open {D : Dialect} (hD : Sane D) {ms : List Inside} (hc : InCode ms) (e : Bool) (rest : Str) :
    D.read ms (D.delim e :: rest) = some ([.opens], .str (D.delim e) :: ms, rest) := by
  have hr : ∀ ms, D.readCode ms (D.delim e) = some ([.opens], .str (D.delim e) :: ms) := by
    intro ms
    unfold Dialect.readCode
    rw [if_pos]
    cases e
    · exact .inr rfl
    · exact .inl rfl
  have hp := hD.plain _ (hD.quotes e)
  cases ms with
  | nil => simp only [Dialect.read, hr, Option.map_some]
  | cons m ms =>
    cases m with
    | str d => exact absurd rfl (hc d ms)
    | eval n =>
      simp only [Dialect.read]
      rw [if_neg hp.2.1, if_neg hp.2.2.1, hr]
      rfl

theorem follows_map {r : List (Item ι)} (h : (!(follows r).any namePart) = true) (c : Char)
    (hc : follows r = some c) : namePart c = false := by
  rw [hc] at h; simpa using h

theorem signs_code (D : Dialect) (fi : ι → List Str) {ms : List Inside} (hc : InCode ms) (t : Str)
    (i : Item ι) (items : List (Item ι)) : D.signs fi ms t (i :: items) = match i with
    | .openQuote e => (D.signs fi (.str (D.delim e) :: ms) [] items).map (.opens :: ·)
    | .closeEval =>
      match ms with
      | .eval 0 :: ms' => (D.signs fi ms' [] items).map (.leave :: ·)
      | _ => none
    | .literal s => (D.fits s.text ms).bind fun ms => (D.signs fi ms [] items).map (codes s.text ++ ·)
    | .lang _ i => (D.fits (fi i).flatten ms).bind fun ms =>
      (D.signs fi ms [] items).map (codes (fi i).flatten ++ ·)
    | .register _ _ => D.signs fi ms [] items
    | .push => D.signs fi ms [] items
    | .line => D.signs fi ms [] items
    | .space => D.signs fi ms [] items
    | .indentation _ => D.signs fi ms [] items
    | _ => none := by
  rw [Dialect.signs.eq_def]
  cases ms with
  | nil => rfl
  | cons m ms =>
    cases m with
    | str d => exact absurd rfl (hc d ms)
    | eval n => cases n <;> cases i <;> rfl

theorem signs_aux {D : Dialect} {L : Lang ι} {esc : Char → Str} (hL : Strung D L esc) (cfg : Config)
    (hn : ∀ c ∈ cfg.newline, c.isWhitespace = true) (k : Str) (n : Nat) :
    ∀ (items : List (Item ι)), items.length ≤ n → ∀ ms fs t l, Framed D ms fs →
      D.signs L.langItem ms t items = some l →
      (res L cfg false fs items).2 = some [] ∧
      (InCode ms → ∀ st, Scan D ms (evText cfg.newline (actsEv cfg st (res L cfg false fs items).1) ++ k) l [] k) ∧
      (¬ InCode ms → ∀ st : LSt, Scan D ms
        (t.flatMap esc ++ (evText cfg.newline (actsEv cfg st.flushed (res L cfg false fs items).1) ++ k)) l [] k) := by
  have hD := hL.sane
  induction n with
  | zero =>
    intro items hlen ms fs t l hF h
    obtain rfl : items = [] := List.eq_nil_of_length_eq_zero (by omega)
    cases ms with
    | cons m ms => simp [Dialect.signs] at h
    | nil =>
      simp only [Dialect.signs, Option.some.injEq] at h
      subst h
      rw [res_nil]
      exact ⟨rfl, fun _ st => .refl _ _, fun hc => absurd (fun d ms => by simp) hc⟩
  | succ n ih =>
    intro items hlen ms fs t l hF h
    cases items with
    | nil =>
      cases ms with
      | cons m ms => simp [Dialect.signs] at h
      | nil =>
        simp only [Dialect.signs, Option.some.injEq] at h
        subst h
        rw [res_nil]
        exact ⟨rfl, fun _ st => .refl _ _, fun hc => absurd (fun d ms => by simp) hc⟩
    | cons i items =>
      have hlen' : items.length ≤ n := by simpa using hlen
      by_cases hc : InCode ms
      · obtain ⟨f, fs', rfl, hq, he⟩ := framed_code hF hc
        rw [signs_code _ _ hc] at h
        -- text of code before the rest
        have code : ∀ (s : Str) (acts : List Act),
            (∀ st, evText cfg.newline (actsEv cfg st acts) = evText cfg.newline (actEv cfg st (.text s))) →
            ((D.fits s ms).bind fun ms => (D.signs L.langItem ms [] items).map (codes s ++ ·)) = some l →
            res L cfg false (f :: fs') (i :: items) = pre acts (res L cfg false (f :: fs') items) →
            (res L cfg false (f :: fs') (i :: items)).2 = some [] ∧
            ∀ st, Scan D ms (evText cfg.newline (actsEv cfg st (res L cfg false (f :: fs') (i :: items)).1) ++ k) l [] k := by
          intro s acts ha h he
          simp only [Option.bind_eq_some_iff, Option.map_eq_some_iff] at h
          obtain ⟨ms', hf, l', hl, rfl⟩ := h
          obtain ⟨hF', hc'⟩ := framed_fits hF hc hf
          obtain ⟨i1, i2, -⟩ := ih items hlen' ms' _ _ _ hF' hl
          rw [he]
          refine ⟨i1, fun st => ?_⟩
          simp only [pre]
          rw [actsEv_append, evText_append, ha, List.append_assoc]
          exact (scan_text hD cfg hn st hc hf _).trans (i2 hc' _)
        have soft : ∀ acts : List Act, (∀ st, evText cfg.newline (actsEv cfg st acts) = []) →
            D.signs L.langItem ms [] items = some l →
            res L cfg false (f :: fs') (i :: items) = pre acts (res L cfg false (f :: fs') items) →
            (res L cfg false (f :: fs') (i :: items)).2 = some [] ∧
            ∀ st, Scan D ms (evText cfg.newline (actsEv cfg st (res L cfg false (f :: fs') (i :: items)).1) ++ k) l [] k := by
          intro acts ha h he
          obtain ⟨i1, i2, -⟩ := ih items hlen' ms _ _ _ hF h
          rw [he]
          refine ⟨i1, fun st => ?_⟩
          simp only [pre]
          rw [actsEv_append, evText_append, ha, List.nil_append]
          exact i2 hc _
        suffices hm : (res L cfg false (f :: fs') (i :: items)).2 = some [] ∧
            ∀ st, Scan D ms (evText cfg.newline (actsEv cfg st (res L cfg false (f :: fs') (i :: items)).1) ++ k) l [] k from
          ⟨hm.1, fun _ => hm.2, fun h => absurd hc h⟩
        cases i with
        | literal s =>
          exact code s.text [.text s.text] (fun st => by simp [actsEv]) h (by rw [res_cons]; simp [hq])
        | lang p i =>
          exact code (L.langItem i).flatten _ (fun st => evText_texts cfg st _) h (by rw [res_cons])
        | register p i => exact soft [] (fun st => rfl) h (by rw [res_cons]; simp [pre])
        | push => exact soft [.push] (fun st => by simp [actsEv, actEv, evText]) h (by rw [res_cons])
        | line => exact soft [.line] (fun st => by simp [actsEv, actEv, evText]) h (by rw [res_cons])
        | space => exact soft [.space] (fun st => by simp [actsEv, actEv, evText]) h (by rw [res_cons])
        | indentation d =>
          by_cases hz : d = 0
          · exact soft [] (fun st => rfl) h (by rw [res_cons]; simp [hz, pre])
          · exact soft [.indent d] (fun st => by simp [actsEv, actEv, evText]) h (by rw [res_cons]; simp [hz])
        | openQuote e =>
          simp only [Option.map_eq_some_iff] at h
          obtain ⟨l', h', rfl⟩ := h
          obtain ⟨i1, -, i2⟩ := ih items hlen' _ _ _ _ (.str (e := e) hF hc hq he) h'
          rw [res_cons]
          simp only [hq, Bool.not_false, if_true]
          refine ⟨i1, fun st => ?_⟩
          simp only [pre]
          rw [actsEv_append, evText_append, actsSt_texts, evText_texts, hL.opens, List.append_assoc]
          refine (scan_char hD cfg hn st hc _ (read_open hD hc e _)).trans ?_
          have := i2 (fun hc => hc _ _ rfl) st
          simpa [actSt] using this
        | closeEval =>
          cases hF with
          | top => simp at h
          | str => exact absurd rfl (hc _ _)
          | @eval d ms fs j hF' =>
            cases j with
            | succ j => simp at h
            | zero =>
              simp only [Option.map_eq_some_iff] at h
              obtain ⟨l', h', rfl⟩ := h
              obtain ⟨i1, -, i2⟩ := ih items hlen' _ _ _ _ hF' h'
              rw [res_cons]
              simp only [if_true]
              refine ⟨i1, fun st => ?_⟩
              simp only [pre]
              rw [actsEv_append, evText_append, actsSt_texts, evText_texts, hL.stop, List.append_assoc]
              refine (scan_char hD cfg hn st (o := [.leave]) (ms' := .str d :: ms) hc _ (by simp [Dialect.read])).trans ?_
              have := i2 (fun hc => hc _ _ rfl) st
              simpa [actSt] using this
        | closeQuote => simp at h
        | openEval => simp at h
      · suffices hm : (res L cfg false fs (i :: items)).2 = some [] ∧
            ∀ st : LSt, Scan D ms (t.flatMap esc ++
              (evText cfg.newline (actsEv cfg st.flushed (res L cfg false fs (i :: items)).1) ++ k)) l [] k from
          ⟨hm.1, fun h => absurd h hc, fun _ => hm.2⟩
        cases hF with
        | top => exact absurd (fun d ms => by simp) hc
        | eval => exact absurd (fun d ms => by simp) hc
        | @str ms f fs e hF hcm hq he =>
          have hmm : ¬ InCode (.str (D.delim e) :: ms) := hc
          cases i with
          | literal s =>
            simp only [Dialect.signs] at h
            obtain ⟨i1, -, i2⟩ := ih items hlen' _ _ _ _ (.str (e := e) hF hcm hq he) h
            rw [res_cons]
            simp only [if_true]
            refine ⟨i1, fun st => ?_⟩
            simp only [pre]
            rw [actsEv_append, evText_append, actsSt_texts, evText_texts, (evText_flushed _ _ _).1,
              (evText_flushed cfg _ _).2, hL.escapes, List.append_assoc]
            have := i2 hmm st
            rwa [List.flatMap_append, List.append_assoc] at this
          | register p i =>
            simp only [Dialect.signs] at h
            obtain ⟨i1, -, i2⟩ := ih items hlen' _ _ _ _ (.str (e := e) hF hcm hq he) h
            rw [res_cons]
            exact ⟨i1, i2 hmm⟩
          | closeQuote =>
            simp only [Dialect.signs] at h
            split at h
            · rename_i hg
              rw [Option.map_eq_some_iff] at h
              obtain ⟨l', h, rfl⟩ := h
              obtain ⟨i1, i2, -⟩ := ih items hlen' _ _ _ _ hF h
              have hfr : ({ inQuote := false, hasEval := false, endOnEval := f.endOnEval } : Frame) = f := by
                cases f; simp_all
              rw [res_cons]
              simp only [if_true, hfr, Bool.false_eq_true, if_false]
              refine ⟨i1, fun st => ?_⟩
              simp only [pre]
              rw [actsEv_append, evText_append, actsSt_texts, evText_texts, (evText_flushed _ _ _).1,
                (evText_flushed cfg _ _).2, hL.closes, List.append_assoc, List.singleton_append]
              refine (hL.reads e t ms _ _ hg (.inl rfl)).trans ?_
              exact .step (o := [.closes]) (ms' := ms) (by simp [Dialect.read]) (by simp) (i2 hcm st.flushed)
            · simp at h
          | openEval =>
            simp only [Dialect.signs] at h
            split at h
            swap
            · simp at h
            rename_i hg
            simp only [Bool.and_eq_true] at hg
            obtain ⟨⟨hg, hev⟩, hap⟩ := hg
            rw [Option.map_eq_some_iff] at h
            obtain ⟨l', h, rfl⟩ := h
            have hd : '$' ≠ D.delim e := fun h => (hD.plain _ (hD.quotes e)).2.2.2.1 h.symm
            -- the evaluation in braces
            have braced : res L cfg false ({ f with hasEval := e, inQuote := true } :: fs) (.openEval :: items) =
                  pre (texts L.startEval) (res L cfg false (⟨false, false, true⟩ ::
                    { f with hasEval := e, inQuote := true } :: fs) items) →
                (res L cfg false ({ f with hasEval := e, inQuote := true } :: fs) (.openEval :: items)).2 = some [] ∧
                ∀ st : LSt, Scan D (.str (D.delim e) :: ms) (t.flatMap esc ++ (evText cfg.newline (actsEv cfg st.flushed
                  (res L cfg false ({ f with hasEval := e, inQuote := true } :: fs) (.openEval :: items)).1) ++ k))
                  (unitsOf t ++ .enter :: l') [] k := by
              intro hr
              obtain ⟨i1, i2, -⟩ := ih items hlen' _ _ _ _ (.eval (.str (e := e) hF hcm hq he)) h
              rw [hr]
              refine ⟨i1, fun st => ?_⟩
              simp only [pre]
              rw [actsEv_append, evText_append, actsSt_texts, evText_texts, (evText_flushed _ _ _).1,
                (evText_flushed cfg _ _).2, hL.start, List.append_assoc, List.cons_append]
              refine (hL.reads e t ms _ _ hg (.inr rfl)).trans ?_
              refine .step (o := [.enter]) (ms' := .eval 0 :: .str (D.delim e) :: ms) ?_ ?_ (i2 (fun d ms => by simp) st.flushed)
              · simp [Dialect.read, hd, hev]
              · simp
                omega
            cases hsh : D.short with
            | false =>
              exact braced (res_openEval L (hL.long hsh) cfg false _ _ _ rfl)
            | true =>
              by_cases hone : ∃ s r, items = .literal s :: .closeEval :: r
              swap
              · refine braced ?_
                rw [res_cons]
                simp only [if_true]
                split
                · rename_i s r; exact absurd ⟨s, r, rfl⟩ hone
                · rfl
              obtain ⟨s, r, rfl⟩ := hone
              simp only [Dialect.apart, hsh, Bool.not_true, Bool.false_or, Bool.and_eq_true] at hap
              obtain ⟨hname, hfol⟩ := hap
              obtain ⟨hne, hall, hst⟩ := isName_all hname
              -- what is meant
              have hfits : D.fits s.text (.eval 0 :: .str (D.delim e) :: ms) =
                  some (.eval 0 :: .str (D.delim e) :: ms) := name_fits hD hall
              simp only [Dialect.signs, hfits, Option.bind_some, Option.map_map, Option.map_eq_some_iff] at h
              obtain ⟨l'', h, rfl⟩ := h
              have hF' : Framed D _ _ := .str (e := e) hF hcm hq he
              obtain ⟨i1, -, i2⟩ := ih r (by simp at hlen'; omega) _ _ _ _ hF' h
              have hr : res L cfg false ({ f with hasEval := e, inQuote := true } :: fs)
                  (.openEval :: .literal s :: .closeEval :: r) =
                  pre (texts (L.evalLiteral s.text))
                    (res L cfg false ({ f with hasEval := e, inQuote := true } :: fs) r) := by
                rw [res_cons]; simp
              rw [hr]
              refine ⟨i1, fun st => ?_⟩
              simp only [pre]
              rw [actsEv_append, evText_append, actsSt_texts, evText_texts, (evText_flushed _ _ _).1,
                (evText_flushed cfg _ _).2, hL.short hsh, List.append_assoc, List.cons_append]
              refine (hL.reads e t ms _ _ hg (.inr rfl)).trans ?_
              obtain ⟨txt, x, rest, e1, e2, e3⟩ := string_head hL cfg L.langItem r e ms
                { f with hasEval := e, inQuote := true } fs rfl rfl _ _ h st
              have hhead : ∀ c, (txt.flatMap esc ++ x :: (rest ++ k)).head? = some c → namePart c = false := by
                intro c hc
                cases htx : txt with
                | nil =>
                  rw [htx] at hc
                  simp only [List.flatMap_nil, List.nil_append, List.head?_cons, Option.some.injEq] at hc
                  subst hc
                  rcases e2 with rfl | rfl
                  · exact (hD.plain _ (hD.quotes e)).2.2.2.2
                  · decide
                | cons a txt' =>
                  rw [htx] at hc e3
                  have ha := follows_map hfol a e3.symm
                  rw [List.flatMap_cons, List.append_assoc, List.head?_append] at hc
                  rcases hL.heads a with hh | hh
                  · rw [hh] at hc
                    simp only [Option.some_or, Option.some.injEq] at hc
                    subst hc; decide
                  · rw [hh] at hc
                    simp only [Option.some_or, Option.some.injEq] at hc
                    subst hc; exact ha
              have := i2 hmm st
              simp only [List.flatMap_nil, List.nil_append] at this
              rw [e1, List.append_assoc, List.cons_append] at this ⊢
              obtain ⟨t1, t2⟩ := takeWhile_append_neg (p := namePart) hall hhead
              have hx : (Sign.enter :: (codes s.text ++ Sign.leave :: l'')) =
                  (.enter :: s.text.map .code ++ [.leave]) ++ l'' := by
                rw [name_white hall]; simp
              simp only [Function.comp]
              rw [hx]
              refine .step (ms' := .str (D.delim e) :: ms) ?_ ?_ this
              · simp only [Dialect.read]
                rw [if_neg hd, if_neg, if_pos ⟨hsh, trivial⟩, if_pos, t1, t2]
                · rw [List.head?_append]
                  cases hs' : s.text with
                  | nil => exact absurd hs' hne
                  | cons a b => rw [hs'] at hst; exact hst
                · rintro ⟨-, -, hb⟩
                  rw [List.head?_append] at hb
                  cases hs' : s.text with
                  | nil => exact absurd hs' hne
                  | cons a b =>
                    rw [hs'] at hst hb
                    simp only [List.head?_cons, Option.some_or, Option.some.injEq] at hb
                    subst hb
                    exact absurd (show nameStart '{' = true from hst) (by decide)
              · simp; omega
          | _ => simp [Dialect.signs] at h

theorem unitsOf_cons (c : Char) (t : Str) : unitsOf (c :: t) = (utf16 c).map .unit ++ unitsOf t := by
  simp [unitsOf]

theorem scan_unit {D : Dialect} {d : Char} {ms : List Inside} {s r : Str} {u : List Nat}
    (h : D.units d s = some (u, r)) (hl : r.length < s.length)
    (h1 : ∀ c, s.head? = some c → c ≠ d)
    (h2 : D.evals d = true → s.head? = some '$' → s.tail.head? ≠ some '{')
    (h3 : D.short = true → s.head? ≠ some '$') :
    Scan D (.str d :: ms) s (u.map .unit) (.str d :: ms) r := by
  cases s with
  | nil => simp at hl
  | cons c s =>
    refine .one ?_ hl
    simp only [Dialect.read]
    rw [if_neg (h1 c rfl), if_neg, if_neg, h]
    · rfl
    · rintro ⟨a, rfl⟩; exact h3 a rfl
    · rintro ⟨a, rfl, b⟩; exact h2 a rfl b

theorem escDart_head (c : Char) : (escDart c).head? = some '\\' ∨ (escDart c).head? = some c := by
  unfold escDart
  iterate 9 refine head_ite (fun _ => .inl rfl) ?_
  refine head_ite (fun _ => .inr rfl) (head_ite (fun _ => .inl rfl) ?_)
  unfold escUtf16 utf16Char
  split <;> exact .inl rfl

theorem strung_dart (li : ι → List Str) : Strung dartDialect (dartLang li) escDart where
  sane := ⟨by decide, by decide⟩
  opens _ := rfl
  closes _ := rfl
  escapes _ := rfl
  start := rfl
  stop := rfl
  long h := by simp [dartDialect] at h
  short _ s := by simp [dartLang]
  heads := escDart_head
  reads := by
    intro e t ms x rest hg _
    induction t with
    | nil => exact .refl _ _
    | cons c t ih =>
      have hg' : (c ≠ '\x11' ∧ c ≠ '\x12') ∧ dartDialect.good (dartDialect.delim e) t = true := by
        simpa [dartDialect] using hg
      rw [List.flatMap_cons, unitsOf_cons, List.append_assoc]
      refine Scan.trans ?_ (ih hg'.2)
      have hr := dart_step c (t.flatMap escDart ++ x :: rest)
      rw [cFamilyFix_ne c hg'.1.2 hg'.1.1] at hr
      obtain ⟨a, as, ha⟩ : ∃ a as, escDart c = a :: as := by
        cases h : escDart c with
        | nil => exact absurd h (escDart_ne c)
        | cons a as => exact ⟨a, as, rfl⟩
      rw [ha] at hr ⊢
      simp only [List.cons_append] at hr ⊢
      have hb : a ≠ '"' ∧ a ≠ '$' := by
        constructor <;> rintro rfl <;> simp [dartReader] at hr
      refine scan_unit (D := dartDialect) hr (by simp; omega) ?_ ?_ ?_
      · intro d hd; simp at hd; subst hd; exact hb.1
      · intro _ hd; simp at hd; exact absurd hd hb.2
      · intro _ hd; simp at hd; exact absurd hd hb.2

theorem head_rest {t : Str} {x : Char} {rest : Str} {c : Char}
    (h : (t.flatMap escJs ++ x :: rest).head? = some c) : c = '\\' ∨ t.head? = some c ∨ (t = [] ∧ c = x) := by
  cases t with
  | nil => simp at h; exact .inr (.inr ⟨rfl, h.symm⟩)
  | cons d t =>
    rw [List.flatMap_cons, List.append_assoc, List.head?_append] at h
    rcases escJs_head d with hh | hh <;> rw [hh] at h <;> simp at h
    · exact .inl h.symm
    · exact .inr (.inl (by simp [h]))

theorem strung_js (li : ι → List Str) : Strung jsDialect (jsLang li) escJs where
  sane := ⟨by decide, by decide⟩
  opens e := by cases e <;> rfl
  closes e := by cases e <;> rfl
  escapes _ := rfl
  start := rfl
  stop := rfl
  long _ _ := rfl
  short h := by simp [jsDialect] at h
  heads := escJs_head
  reads := by
    intro e t ms x rest hg hx
    have hxs : x.isDigit = false ∧ x ≠ '{' := by
      cases e <;> rcases hx with rfl | rfl <;> decide
    induction t with
    | nil => exact .refl _ _
    | cons c t ih =>
      have hgg : jsGood (decide (jsDialect.delim e = '`')) (c :: t) = true := hg
      simp only [jsGood, Bool.and_eq_true, decide_eq_true_eq] at hgg
      obtain ⟨⟨⟨⟨g1, g2⟩, g3⟩, g4⟩, g5⟩ := hgg
      rw [List.flatMap_cons, unitsOf_cons, List.append_assoc]
      refine Scan.trans ?_ (ih g5)
      have hz : c = '\x00' → NoDigit (t.flatMap escJs ++ x :: rest) := by
        rintro rfl d hd
        have hdig : d.isDigit = false := by
          rcases head_rest hd with rfl | h | ⟨-, rfl⟩
          · decide
          · simpa [h] using g3
          · exact hxs.1
        intro ⟨a, b⟩
        simp only [Char.isDigit, Bool.and_eq_false_iff, decide_eq_false_iff_not] at hdig
        rcases hdig with h | h
        · exact h (by simpa [UInt32.le_iff_toNat_le] using a)
        · exact h (by simpa [UInt32.le_iff_toNat_le] using b)
      obtain ⟨a, as, ha⟩ : ∃ a as, escJs c = a :: as := by
        cases h : escJs c with
        | nil => exact absurd h (escJs_ne c)
        | cons a as => exact ⟨a, as, rfl⟩
      cases e with
      | false =>
        have hr := js_step c (t.flatMap escJs ++ x :: rest) hz
        rw [cFamilyFix_ne c g2 g1] at hr
        rw [ha] at hr ⊢
        simp only [List.cons_append] at hr ⊢
        refine scan_unit (D := jsDialect) hr (by simp; omega) ?_ ?_ ?_
        · intro d hd; simp at hd; subst hd; rintro rfl; simp [jsReader, jsDialect] at hr
        · intro h; exact absurd h (by decide)
        · intro h; exact absurd h (by decide)
      | true =>
        have g4' : c ≠ '`' ∧ (c = '$' → t.head? ≠ some '{') := by
          have : jsDialect.delim true = '`' := rfl
          simp [this] at g4
          exact ⟨g4.1, fun h => by rcases g4.2 with h' | h'; exacts [absurd h h', h']⟩
        have hr := template_step c (t.flatMap escJs ++ x :: rest) hz g4'.1 (by
          intro hc hd
          rcases head_rest hd with h | h | ⟨-, h⟩
          · exact absurd h (by decide)
          · exact g4'.2 hc h
          · exact hxs.2 h.symm)
        rw [cFamilyFix_ne c g2 g1] at hr
        rw [ha] at hr ⊢
        simp only [List.cons_append] at hr ⊢
        refine scan_unit (D := jsDialect) hr (by simp; omega) ?_ ?_ ?_
        · intro d hd; simp at hd; subst hd; rintro rfl; simp [templateReader, jsDialect] at hr
        · intro _ hd hd'
          simp at hd hd'
          subst hd
          simp [templateReader, hd'] at hr
        · intro h; exact absurd h (by decide)

end Genco
