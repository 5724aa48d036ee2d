import Verif.Proofs.Split
import Verif.Proofs.Header

/-!
# What texts are written, as a whole
-/

set_option autoImplicit false

namespace Genco

open Spec

variable {ι : Type}

/-- The requests are, texts joined, requests for texts of the stream. -/
def Whole (P : Str → Prop) (acts : List Act) : Prop :=
  ∃ l, explode l = explode acts ∧ ∀ s, .text s ∈ l → s ≠ [] → P s

theorem Whole.nil {P : Str → Prop} : Whole P [] := ⟨[], rfl, by simp⟩

theorem Whole.append {P : Str → Prop} {a b : List Act} (ha : Whole P a) (hb : Whole P b) :
    Whole P (a ++ b) := by
  obtain ⟨x, hx, px⟩ := ha
  obtain ⟨y, hy, py⟩ := hb
  refine ⟨x ++ y, by rw [explode_append, explode_append, hx, hy], fun s hs => ?_⟩
  rcases List.mem_append.1 hs with h | h
  · exact px s h
  · exact py s h

theorem Whole.texts {P : Str → Prop} {l : List Str} (h : P l.flatten) : Whole P (texts l) := by
  refine ⟨[.text l.flatten], ?_, fun s hs _ => ?_⟩
  · rw [explode_texts]; simp [explode, explode1]
  · simp only [List.mem_singleton, Act.text.injEq] at hs
    rwa [hs]

theorem Whole.quiet {P : Str → Prop} {a : Act} (h : ∀ s, a ≠ .text s) : Whole P [a] :=
  ⟨[a], rfl, fun s hs => absurd (List.mem_singleton.1 hs).symm (h s)⟩

theorem Whole.pre {P : Str → Prop} {α : Type} {a : List Act} {r : List Act × Option α}
    (ha : Whole P a) (hr : Whole P r.1) : Whole P (pre a r).1 := ha.append hr

/-- What is rendered ends with the last texts. -/
theorem renderActs_texts (cfg : Config) (a : List Act) (l : List Str) :
    ∃ x, renderActs cfg (a ++ texts l) = x ++ l.flatten := by
  have h : renderActs cfg (a ++ texts l) = renderActs cfg (a ++ [.text l.flatten]) := by
    refine renderActs_explode ?_
    rw [explode_append, explode_append, explode_texts]
    simp [explode, explode1]
  rw [h]
  unfold renderActs
  rw [actsEv_append, evText_append]
  by_cases hl : l.flatten = []
  · rw [hl]; exact ⟨_, (List.append_nil _).symm⟩
  · simp only [actsEv, actEv, hl, ne_eq, not_false_eq_true, if_true, List.append_nil]
    rw [evText_append]
    exact ⟨_, by rw [List.append_assoc]; simp [evText]; rfl⟩

/-- The frames are in strings of the stream only. -/
def Opened (all : List (Item ι)) (st : List Frame) : Prop :=
  ∀ f ∈ st, f.inQuote = true → ∃ e, Item.openQuote e ∈ all

theorem resolve_whole (L : Lang ι) (cfg : Config) (all : List (Item ι)) (fuel : Nat) (e : Bool)
    (st : List Frame) (hst : Opened all st) (items : List (Item ι)) (hsub : items ⊆ all) :
    Whole (EmittedBy L all) (resolve L cfg fuel e st items).1 := by
  induction fuel generalizing e st items with
  | zero => exact .nil
  | succ fuel ih =>
    cases items with
    | nil => exact .nil
    | cons i rest =>
      have hi : i ∈ all := hsub List.mem_cons_self
      have hrest : rest ⊆ all := fun x hx => hsub (List.mem_cons_of_mem _ hx)
      cases st with
      | nil => exact .nil
      | cons head stack' =>
        have htail : Opened all stack' := fun f hf => hst f (by simp [hf])
        have hcons : ∀ g : Frame, (g.inQuote = true → ∃ e, Item.openQuote e ∈ all) →
            Opened all (g :: stack') := by
          intro g hg f hf
          rcases List.mem_cons.1 hf with rfl | hf
          · exact hg
          · exact htail f hf
        simp only [resolve]
        cases i with
        | openQuote e =>
          simp only
          split
          · exact .pre (.texts (.openQuote hi)) (ih _ _ (hcons _ (fun _ => ⟨e, hi⟩)) _ hrest)
          · split
            · rename_i he
              have he : e = false := by simpa using he
              subst he
              split
              · exact .nil
              · rename_i rest' hr
                obtain ⟨x, hx⟩ := renderActs_texts cfg (texts (L.openQuote false) ++
                  (resolve L cfg fuel true [Frame.default] rest).1) (L.closeQuote false)
                rw [hx]
                exact .pre (.texts (.inner x hi)) (ih _ _ hst _
                  (fun x hx => hrest (resolve_subset _ _ _ _ _ _ _ hr hx)))
            · exact .nil
        | closeQuote =>
          simp only
          split
          · exact .nil
          · split
            · exact .pre (.texts (.closeQuote _ hi)) (ih _ _ (hcons _ (by simp)) _ hrest)
            · exact .nil
        | openEval =>
          simp only
          split
          · split
            · rename_i t rest'
              exact .pre (.texts (.evalLiteral hi (hrest List.mem_cons_self)))
                (ih _ _ hst _ (fun x hx => hrest (by simp [hx])))
            · refine .pre (.texts (.startEval hi)) (ih _ _ ?_ _ hrest)
              intro f hf
              rcases List.mem_cons.1 hf with rfl | hf
              · simp
              · exact hst f hf
          · exact .nil
        | closeEval =>
          simp only
          split
          · exact .pre (.texts (.endEval hi)) (ih _ _ htail _ hrest)
          · exact .nil
        | literal t =>
          refine .pre ?_ (ih _ _ hst _ hrest)
          split
          · rename_i hq
            obtain ⟨e, he⟩ := hst head (by simp) hq
            exact .texts (.quoted he hi)
          · have : Whole (EmittedBy L all) (texts [t.text]) := .texts (by simpa using .literal hi)
            exact this
        | lang p i => exact .pre (.texts (.lang hi)) (ih _ _ hst _ hrest)
        | register p i => exact ih _ _ hst _ hrest
        | indentation n =>
          simp only
          split
          · exact ih _ _ hst _ hrest
          · exact .pre (.quiet (by simp)) (ih _ _ hst _ hrest)
        | push => exact .pre (.quiet (by simp)) (ih _ _ hst _ hrest)
        | line => exact .pre (.quiet (by simp)) (ih _ _ hst _ hrest)
        | space => exact .pre (.quiet (by simp)) (ih _ _ hst _ hrest)

theorem resolveItems_whole (L : Lang ι) (cfg : Config) (items : List (Item ι)) :
    Whole (EmittedBy L items) (resolveItems L cfg items).1 :=
  resolve_whole L cfg items _ _ _ (by intro f hf; simp_all [Frame.default]) items (fun _ h => h)

theorem Whole.imp {P Q : Str → Prop} {a : List Act} (h : Whole P a) (hpq : ∀ s, P s → Q s) : Whole Q a := by
  obtain ⟨l, h1, h2⟩ := h
  exact ⟨l, h1, fun s hs hn => hpq s (h2 s hs hn)⟩

theorem resolveStreams_whole (L : Lang ι) (cfg : Config) (ss : List (List (Item ι))) :
    Whole (fun s => ∃ items ∈ ss, EmittedBy L items s) (resolveStreams L cfg ss).1 := by
  induction ss with
  | nil => exact .nil
  | cons s ss ih =>
    have h1 : Whole (fun t => ∃ items ∈ s :: ss, EmittedBy L items t) (resolveItems L cfg s).1 :=
      (resolveItems_whole L cfg s).imp (fun t ht => ⟨s, by simp, ht⟩)
    simp only [resolveStreams]
    split
    · exact h1
    · exact .pre h1 (ih.imp (fun t ⟨i, hi, ht⟩ => ⟨i, by simp [hi], ht⟩))

/-- The lines that requests lead to. -/
theorem whole_lines {P : Str → Prop} {cfg : Config} {acts : List Act} (h : Whole P acts) :
    LinesOk P (actsSt .new acts) (vecActs cfg .new .new acts) := by
  obtain ⟨l, h1, h2⟩ := h
  have := linesOk_acts (cfg := cfg) l (linesOk_new P) h2
  rwa [← actsSt_explode, ← vecActs_explode, h1, actsSt_explode, vecActs_explode] at this

/-- Every line ends with a text, the first and the last line are not empty, and no two empty lines
follow each other. -/
theorem whole_shape {P : Str → Prop} {cfg : Config} {acts : List Act} (h : Whole P acts) (ls : List Str)
    (hl : ls = (vecActs cfg .new .new acts).intoVec) :
    (∀ l ∈ ls, l = [] ∨ ∃ w t, l = w ++ t ∧ t ≠ [] ∧ P t) ∧
    (ls = [[]] ∨ ∃ p w t, ls = p ++ [w ++ t] ∧ t ≠ [] ∧ P t) ∧
    (ls = [[]] ∨ ∀ l r, ls = l :: r → l ≠ []) ∧ ∀ p q, ls ≠ p ++ [] :: [] :: q := by
  subst hl
  have hok := whole_lines (cfg := cfg) h
  refine ⟨?_, ?_, ?_, ?_⟩
  · intro l hl
    simp only [VecState.intoVec, List.mem_append, List.mem_singleton] at hl
    rcases hl with hl | hl
    · exact hok.target l hl
    · by_cases hi : (actsSt .new acts).line = .initial
      · rw [hl, hok.start hi]; exact .inl rfl
      · rw [hl]; exact .inr (hok.buf hi)
  · by_cases hi : (actsSt .new acts).line = .initial
    · rw [hok.start hi]; exact .inl rfl
    · obtain ⟨w, t, h1, h2, h3⟩ := hok.buf hi
      exact .inr ⟨_, w, t, by rw [VecState.intoVec, h1], h2, h3⟩
  · by_cases hi : (actsSt .new acts).line = .initial
    · rw [hok.start hi]; exact .inl rfl
    · exact .inr (hok.first hi)
  · intro p q hpq
    have := hok.chain
    rw [hpq, List.isChain_append] at this
    have := this.2.1
    simp at this

end Genco
