import Verif.Spec.Found
import Verif.Proofs.Split
import Verif.Proofs.Escape
import Verif.Proofs.Header

/-!
# Finding the strings of a stream in its rendering
-/

set_option autoImplicit false

namespace Genco

open Spec

variable {ι : Type}

theorem closeAt_append {q body r : Str} (h : closeAt q = some (body, r)) (y : Str) :
    closeAt (q ++ y) = some (body, r ++ y) := by
  induction hn : q.length using Nat.strongRecOn generalizing q body r with
  | _ n ih =>
    cases q with
    | nil => simp [closeAt] at h
    | cons c q =>
      rw [List.cons_append, closeAt.eq_def]
      rw [closeAt.eq_def] at h
      simp only at h ⊢
      split at h
      · rename_i hc
        rw [if_pos hc]
        simp only [Option.some.injEq, Prod.mk.injEq] at h
        rw [← h.1, ← h.2]
      · rename_i hc
        rw [if_neg hc]
        split at h
        · simp at h
        · rename_i hl
          rw [if_neg hl]
          split at h
          · rename_i hb
            rw [if_pos hb]
            cases q with
            | nil => simp at h
            | cons e q =>
              simp only [List.cons_append] at h ⊢
              split at h
              · simp at h
              · rename_i he
                rw [if_neg he]
                rw [Option.map_eq_some_iff] at h
                obtain ⟨⟨a, b⟩, h1, h2⟩ := h
                simp only [Prod.mk.injEq] at h2
                rw [ih q.length (by rw [← hn]; simp; omega) h1 rfl, Option.map_some, ← h2.1, ← h2.2]
          · rename_i hb
            rw [if_neg hb]
            rw [Option.map_eq_some_iff] at h
            obtain ⟨⟨a, b⟩, h1, h2⟩ := h
            simp only [Prod.mk.injEq] at h2
            rw [ih q.length (by rw [← hn]; simp) h1 rfl, Option.map_some, ← h2.1, ← h2.2]

theorem Spec.Found.code {p x : Str} {bs : List Str} (hp : '"' ∉ p) (h : Found x bs) : Found (p ++ x) bs := by
  cases h with
  | none h => exact .none (by simp [hp, h])
  | one h1 h2 h3 =>
    rw [← List.append_assoc]
    exact .one (by simp [hp, h1]) h2 h3

theorem Spec.Found.append {x y : Str} {bs cs : List Str} (hx : Found x bs) (hy : Found y cs) :
    Found (x ++ y) (bs ++ cs) := by
  induction hx with
  | none h => exact hy.code h
  | one h1 h2 _ ih =>
    rw [List.append_assoc, List.cons_append]
    exact .one h1 (closeAt_append h2 y) ih

theorem found_unique {x : Str} {bs cs : List Str} (h : Found x bs) (k : Found x cs) : bs = cs := by
  induction h generalizing cs with
  | none h =>
    cases k with
    | none _ => rfl
    | one _ _ _ => simp at h
  | @one code q body r bs h1 h2 h3 ih =>
    generalize hx : code ++ '"' :: q = x at k
    cases k with
    | none h => rw [← hx] at h; simp at h
    | @one code' q' body' r' bs' h1' h2' h3' =>
      have hq : q = q' := by
        have hs : ∀ (a b u v : Str), '"' ∉ a → '"' ∉ b → a ++ '"' :: u = b ++ '"' :: v → u = v := by
          intro a
          induction a with
          | nil =>
            intro b u v _ hb e
            cases b with
            | nil => simpa using e
            | cons d b => simp at e; simp [← e.1] at hb
          | cons c a iha =>
            intro b u v ha hb e
            cases b with
            | nil => simp at e; simp [e.1] at ha
            | cons d b =>
              simp only [List.cons_append, List.cons.injEq] at e
              exact iha b u v (fun h => ha (by simp [h])) (fun h => hb (by simp [h])) e.2
        exact hs _ _ _ _ h1 h1' hx
      subst hq
      rw [h2] at h2'
      simp only [Option.some.injEq, Prod.mk.injEq] at h2'
      obtain ⟨rfl, rfl⟩ := h2'
      rw [ih h3']

theorem noQuote_chunks {buf : Str} (h : '"' ∉ buf) (fuel n : Nat) : '"' ∉ (chunks buf fuel n).flatten := by
  induction fuel generalizing n with
  | zero => simp [chunks]
  | succ fuel ih =>
    simp only [chunks]
    split
    · rw [List.flatten_cons, List.mem_append]
      rintro (hx | hx)
      · exact h (List.mem_of_mem_take hx)
      · exact ih _ hx
    · simp

theorem evText_strs (nl : Str) (l : List Str) : evText nl (l.map .str) = l.flatten := by
  induction l with
  | nil => rfl
  | cons s l ih => rw [List.map_cons, evText, ih]; rfl

theorem noQuote_flush (cfg : Config) (hn : '"' ∉ cfg.newline) (st : LSt) :
    '"' ∉ evText cfg.newline (flushEv cfg st) := by
  have hS : '"' ∉ SPACES := by simp [SPACES]
  have hT : '"' ∉ TABS := by simp [TABS]
  have hl : ∀ n, '"' ∉ evText cfg.newline (List.replicate n .line) := by
    intro n
    induction n with
    | zero => simp [evText]
    | succ n ih => rw [List.replicate_succ, evText, List.mem_append]; rintro (h | h); exacts [hn h, ih h]
  unfold flushEv
  split
  · rw [evText_append, List.mem_append]
    rintro (h | h)
    · exact hl _ h
    · split at h
      · rw [evText_strs] at h; exact noQuote_chunks hS _ _ h
      · rw [evText_append, evText_strs, evText_strs, List.mem_append] at h
        rcases h with h | h
        · exact noQuote_chunks hT _ _ h
        · exact noQuote_chunks hS _ _ h
  · rw [evText_strs]; exact noQuote_chunks hS _ _

theorem noQuote_text (cfg : Config) (hn : '"' ∉ cfg.newline) (st : LSt) (s : Str) (hs : '"' ∉ s) :
    '"' ∉ evText cfg.newline (actEv cfg st (.text s)) := by
  simp only [actEv]
  split
  · rw [evText_append, List.mem_append]
    rintro (h | h)
    · exact noQuote_flush cfg hn st h
    · simp [evText] at h; exact hs h
  · simp [evText]

theorem evText_texts (cfg : Config) (st : LSt) (l : List Str) :
    evText cfg.newline (actsEv cfg st (texts l)) = evText cfg.newline (actEv cfg st (.text l.flatten)) := by
  rw [← evText_explode, explode_texts, evText_chars]

theorem actsSt_texts (st : LSt) (l : List Str) : actsSt st (texts l) = actSt st (.text l.flatten) := by
  rw [← actsSt_explode, explode_texts, actsSt_chars]

theorem evText_flushed (cfg : Config) (st : LSt) (s : Str) :
    evText cfg.newline (actEv cfg st.flushed (.text s)) = s ∧ actSt st.flushed (.text s) = st.flushed := by
  by_cases h : s = []
  · subst h; exact ⟨rfl, rfl⟩
  · simp [actEv, actSt, h, flushEv_flushed, evText, flushed_flushed]

/-- A language whose strings stand between quotes and whose escapes are skipped by the reader. -/
structure Quotes (L : Lang ι) (esc : Char → Str) : Prop where
  opens : (L.openQuote false).flatten = ['"']
  closes : (L.closeQuote false).flatten = ['"']
  escapes : ∀ s, L.writeQuoted s = s.map esc
  skipped : ∀ c, Skipped (esc c)

theorem found_aux (L : Lang ι) (esc : Char → Str) (hL : Quotes L esc) (cfg : Config) (hn : '"' ∉ cfg.newline)
    (items : List (Item ι)) :
    (∀ bs, contents L.langItem none items = some bs →
      (res L cfg false [Frame.default] items).2 = some [] ∧
      ∀ st, Found (evText cfg.newline (actsEv cfg st (res L cfg false [Frame.default] items).1))
        (bs.map (·.flatMap esc))) ∧
    ∀ t bs, contents L.langItem (some t) items = some bs →
      (res L cfg false [{ Frame.default with inQuote := true }] items).2 = some [] ∧
      ∃ b bs', bs = b :: bs' ∧ ∀ st : LSt, ∃ x r,
        evText cfg.newline (actsEv cfg st.flushed
          (res L cfg false [{ Frame.default with inQuote := true }] items).1) = x ++ '"' :: r ∧
        t.flatMap esc ++ x = b.flatMap esc ∧ Found r (bs'.map (·.flatMap esc)) := by
  induction items with
  | nil =>
    refine ⟨fun bs h => ?_, fun t bs h => by simp [contents] at h⟩
    simp only [contents, Option.some.injEq] at h
    subst h
    exact ⟨rfl, fun st => .none (by simp [res, resolve, actsEv, evText])⟩
  | cons i items ih =>
    obtain ⟨ih1, ih2⟩ := ih
    have hq : Frame.default.inQuote = false := rfl
    -- code before the rest
    have code : ∀ (acts : List Act) bs, contents L.langItem none items = some bs →
        (∀ st, '"' ∉ evText cfg.newline (actsEv cfg st acts)) →
        res L cfg false [Frame.default] (i :: items) = pre acts (res L cfg false [Frame.default] items) →
        (res L cfg false [Frame.default] (i :: items)).2 = some [] ∧
        ∀ st, Found (evText cfg.newline (actsEv cfg st (res L cfg false [Frame.default] (i :: items)).1))
          (bs.map (·.flatMap esc)) := by
      intro acts bs hb ha he
      rw [he]
      refine ⟨(ih1 bs hb).1, fun st => ?_⟩
      simp only [pre]
      rw [actsEv_append, evText_append]
      exact ((ih1 bs hb).2 _).code (ha st)
    have soft : ∀ a : Act, (∀ s, a ≠ .text s) → ∀ st, '"' ∉ evText cfg.newline (actsEv cfg st [a]) := by
      intro a ha st
      cases a with
      | text s => exact absurd rfl (ha s)
      | _ => simp [actsEv, actEv, evText]
    constructor
    · intro bs h
      cases i with
      | literal s =>
        simp only [contents] at h
        split at h
        · simp at h
        · rename_i hs
          refine code [.text s.text] bs h (fun st => ?_) (by rw [res_cons]; simp [hq])
          simp only [actsEv, List.append_nil]
          exact noQuote_text cfg hn st _ hs
      | lang p i =>
        simp only [contents] at h
        split at h
        · simp at h
        · rename_i hs
          refine code (texts (L.langItem i)) bs h (fun st => ?_) (by rw [res_cons])
          rw [evText_texts]
          exact noQuote_text cfg hn st _ hs
      | register p i =>
        simp only [contents] at h
        exact code [] bs h (fun st => by simp [actsEv, evText]) (by rw [res_cons]; simp [pre])
      | push =>
        simp only [contents] at h
        exact code [.push] bs h (soft _ (by simp)) (by rw [res_cons])
      | line =>
        simp only [contents] at h
        exact code [.line] bs h (soft _ (by simp)) (by rw [res_cons])
      | space =>
        simp only [contents] at h
        exact code [.space] bs h (soft _ (by simp)) (by rw [res_cons])
      | indentation n =>
        simp only [contents] at h
        by_cases hz : n = 0
        · exact code [] bs h (fun st => by simp [actsEv, evText]) (by rw [res_cons]; simp [hz, pre])
        · exact code [.indent n] bs h (soft _ (by simp)) (by rw [res_cons]; simp [hz])
      | openQuote e =>
        cases e with
        | true => simp [contents] at h
        | false =>
          simp only [contents] at h
          obtain ⟨h2, b, bs', rfl, h3⟩ := ih2 [] bs h
          have he : res L cfg false [Frame.default] (.openQuote false :: items) =
              pre (texts (L.openQuote false))
                (res L cfg false [{ Frame.default with inQuote := true }] items) := by
            rw [res_cons]; rfl
          rw [he]
          refine ⟨h2, fun st => ?_⟩
          simp only [pre]
          rw [actsEv_append, evText_append, actsSt_texts, evText_texts, hL.opens]
          have hst : actSt st (.text ['"']) = st.flushed := by simp [actSt]
          obtain ⟨x, r, e1, e2, e3⟩ := h3 st
          have ht : evText cfg.newline (actEv cfg st (.text ['"'])) =
              evText cfg.newline (flushEv cfg st) ++ ['"'] := by
            simp [actEv, evText_append, evText]
          rw [hst, e1, ht, List.append_assoc, List.singleton_append]
          refine .one (noQuote_flush cfg hn st) ?_ e3
          have e2' : x = b.flatMap esc := by simpa using e2
          rw [e2']
          exact closeAt_skipped (.flatMap hL.skipped _) _
      | closeQuote => simp [contents] at h
      | openEval => simp [contents] at h
      | closeEval => simp [contents] at h
    · intro t bs h
      cases i with
      | literal s =>
        simp only [contents] at h
        obtain ⟨h2, b, bs', rfl, h3⟩ := ih2 _ bs h
        have he : res L cfg false [{ Frame.default with inQuote := true }] (.literal s :: items) =
            pre (texts (L.writeQuoted s.text))
              (res L cfg false [{ Frame.default with inQuote := true }] items) := by
          rw [res_cons]; rfl
        rw [he]
        refine ⟨h2, b, bs', rfl, fun st => ?_⟩
        obtain ⟨x, r, e1, e2, e3⟩ := h3 st
        refine ⟨s.text.flatMap esc ++ x, r, ?_, ?_, e3⟩
        · simp only [pre]
          rw [actsEv_append, evText_append, actsSt_texts, evText_texts, (evText_flushed _ _ _).1,
            (evText_flushed cfg _ _).2, e1, hL.escapes, List.append_assoc]
          rfl
        · rw [← e2, List.flatMap_append, List.append_assoc]
      | register p i =>
        simp only [contents] at h
        have he : res L cfg false [{ Frame.default with inQuote := true }] (.register p i :: items) =
            res L cfg false [{ Frame.default with inQuote := true }] items := by rw [res_cons]
        rw [he]
        exact ih2 t bs h
      | closeQuote =>
        simp only [contents, Option.map_eq_some_iff] at h
        obtain ⟨bs', h, rfl⟩ := h
        obtain ⟨h2, h3⟩ := ih1 bs' h
        have he : res L cfg false [{ Frame.default with inQuote := true }] (.closeQuote :: items) =
            pre (texts (L.closeQuote false)) (res L cfg false [Frame.default] items) := by
          rw [res_cons]; rfl
        rw [he]
        refine ⟨h2, t, bs', rfl, fun st => ⟨[], _, ?_, List.append_nil _, h3 st.flushed⟩⟩
        simp only [pre]
        rw [actsEv_append, evText_append, actsSt_texts, evText_texts, (evText_flushed _ _ _).1,
          (evText_flushed cfg _ _).2, hL.closes]
        rfl
      | openQuote e => simp [contents] at h
      | _ => simp [contents] at h

theorem found_streams (L : Lang ι) (esc : Char → Str) (hL : Quotes L esc) (cfg : Config) (hn : '"' ∉ cfg.newline)
    (ss : List (List (Item ι))) (bss : List (List Str))
    (h : ss.mapM (contents L.langItem none) = some bss) :
    (resolveStreams L cfg ss).2 = some () ∧
      ∀ st, Found (evText cfg.newline (actsEv cfg st (resolveStreams L cfg ss).1))
        (bss.flatten.map (·.flatMap esc)) := by
  induction ss generalizing bss with
  | nil =>
    simp only [List.mapM_nil, Option.pure_def, Option.some.injEq] at h
    subst h
    exact ⟨rfl, fun st => .none (by simp [resolveStreams, actsEv, evText])⟩
  | cons s ss ih =>
    rw [List.mapM_cons] at h
    simp only [Option.bind_eq_bind, Option.bind_eq_some_iff, Option.pure_def, Option.some.injEq] at h
    obtain ⟨bs, h1, bss', h2, rfl⟩ := h
    obtain ⟨i1, i2⟩ := ih bss' h2
    obtain ⟨k1, k2⟩ := (found_aux L esc hL cfg hn s).1 bs h1
    have hr : resolveItems L cfg s = ((res L cfg false [Frame.default] s).1, some ()) := by
      unfold resolveItems
      have : resolve L cfg s.length false [Frame.default] s = res L cfg false [Frame.default] s := rfl
      simp only [this, k1]
      rfl
    simp only [resolveStreams, hr, pre]
    refine ⟨i1, fun st => ?_⟩
    rw [actsEv_append, evText_append, List.flatten_cons, List.map_append]
    exact (k2 st).append (i2 _)

end Genco
