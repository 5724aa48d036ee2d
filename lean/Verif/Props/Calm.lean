import Verif.Spec.Calm
import Verif.Props.Configs

/-!
# C25 for streams with strings in strings
-/

set_option autoImplicit false

namespace Genco.Props

open Genco Spec Reflow

variable {ι : Type}

/-- Actions that do not break lines. -/
def Flat (acts : List Act) : Prop := ∀ a ∈ acts, isLine a = false ∧ isPush a = false

theorem flat_texts (l : List Str) : Flat (texts l) := by
  intro a ha
  obtain ⟨t, -, rfl⟩ := List.mem_map.1 ha
  exact ⟨rfl, rfl⟩

theorem flat_nil : Flat [] := nofun

theorem flat_append {a b : List Act} (ha : Flat a) (hb : Flat b) : Flat (a ++ b) := by
  intro x hx
  rcases List.mem_append.1 hx with h | h
  · exact ha x h
  · exact hb x h

theorem render_flat {acts : List Act} (h : Flat acts) (cfg cfg' : Config) :
    renderActs cfg acts = renderActs cfg' acts := by
  rw [renderActs_eq, renderActs_eq]
  exact piecesFrom_flat [] acts rfl rfl h cfg cfg'

/-- What is shown of resolving a stream: it does not depend on the configuration, and inside a
string opened in a string it does not break lines, and leaves what is calm outside. -/
def CalmResult (levels : List (List Bool)) (r r' : List Act × Option (List (Item ι))) : Prop :=
  r = r' ∧ (levels ≠ [] → Flat r.1 ∧ ∀ rest, r.2 = some rest → calm levels rest = true)

theorem CalmResult.pre {levels : List (List Bool)} {r r' : List Act × Option (List (Item ι))} {a : List Act}
    (h : CalmResult levels r r') (ha : levels ≠ [] → Flat a) : CalmResult levels (pre a r) (pre a r') := by
  refine ⟨by rw [h.1], fun hl => ⟨flat_append (ha hl) (h.2 hl).1, (h.2 hl).2⟩⟩

theorem resolve_calm (L : Lang ι) (cfg cfg' : Config) (fuel : Nat) : ∀ (e : Bool) (st : List Frame)
    (ls : List (List Bool)) (items : List (Item ι)), items.length ≤ fuel → (e = true ↔ ls ≠ []) →
    calm (st.map (·.inQuote) :: ls) items = true →
    CalmResult ls (resolve L cfg fuel e st items) (resolve L cfg' fuel e st items) := by
  induction fuel with
  | zero =>
    intro e st ls items hf he hc
    have : items = [] := List.length_eq_zero_iff.1 (Nat.le_zero.1 hf)
    subst this
    exact ⟨rfl, fun _ => ⟨flat_nil, by rintro rest h; cases h; cases ls <;> simp [calm]⟩⟩
  | succ fuel ih =>
    intro e st ls items hf₀ he hc
    cases items with
    | nil => exact ⟨rfl, fun _ => ⟨flat_nil, by rintro rest h; cases h; cases ls <;> simp [calm]⟩⟩
    | cons i rest =>
      have hf : rest.length ≤ fuel := by simpa using hf₀
      clear hf₀
      cases st with
      | nil =>
        simp only [List.map_nil, calm] at hc
        exact ⟨rfl, fun _ => ⟨flat_nil, by rintro r h; cases h; exact hc⟩⟩
      | cons head st =>
        have bad : CalmResult (ι := ι) ls ([], none) ([], none) := ⟨rfl, fun _ => ⟨flat_nil, nofun⟩⟩
        cases i with
        | openQuote ev =>
          simp only [List.map_cons, calm] at hc
          simp only [resolve]
          cases hq : head.inQuote with
          | false =>
            rw [hq] at hc
            simp only [Bool.not_false, if_true]
            exact (ih e ({ head with hasEval := ev, inQuote := true } :: st) ls rest hf he (by simpa using hc)).pre
              (fun _ => flat_texts _)
          | true =>
            rw [hq] at hc
            simp only [Bool.not_true, Bool.false_eq_true, if_false]
            cases ev with
            | true => simpa using bad
            | false =>
              simp only [Bool.not_false, if_true]
              obtain ⟨h1, h2⟩ := ih true [Frame.default] ((true :: st.map (·.inQuote)) :: ls) rest hf (by simp)
                (by simpa [Frame.default] using hc)
              obtain ⟨h2, h3⟩ := h2 (by simp)
              rw [← h1]
              cases hr : (resolve L cfg fuel true [Frame.default] rest).2 with
              | none => exact bad
              | some rest' =>
                have hlen := resolve_length _ _ _ _ _ _ _ hr
                have := ih e (head :: st) ls rest' (by omega) he (by simpa [hq] using h3 rest' hr)
                dsimp only
                rw [render_flat (flat_append (flat_append (flat_texts _) h2) (flat_texts _)) cfg cfg']
                exact this.pre (fun _ => flat_texts _)
        | closeQuote =>
          simp only [List.map_cons, calm] at hc
          simp only [resolve]
          cases e with
          | true =>
            have hl := he.1 rfl
            rw [if_neg (by simpa using hl)] at hc
            exact ⟨rfl, fun _ => ⟨flat_nil, by rintro r h; cases h; exact hc⟩⟩
          | false =>
            have hl : ls = [] := by
              by_contra h; exact absurd (he.2 h) (by simp)
            subst hl
            simp only [List.isEmpty_nil, if_true] at hc
            simp only [Bool.false_eq_true, if_false]
            split
            · exact (ih false ({ head with inQuote := false, hasEval := false } :: st) [] rest hf he
                (by simpa using hc)).pre (fun _ => flat_texts _)
            · exact bad
        | openEval =>
          simp only [List.map_cons, calm] at hc
          simp only [resolve]
          split
          · split
            · rename_i s rest'
              simp only [List.length_cons] at hf
              refine (ih e (head :: st) ls rest' (by omega) he ?_).pre (fun _ => flat_texts _)
              simpa [calm] using hc
            · exact (ih e (⟨false, false, true⟩ :: head :: st) ls rest hf he (by simpa using hc)).pre
                (fun _ => flat_texts _)
          · exact bad
        | closeEval =>
          simp only [List.map_cons, calm] at hc
          simp only [resolve]
          split
          · exact (ih e st ls rest hf he hc).pre (fun _ => flat_texts _)
          · exact bad
        | push =>
          simp only [List.map_cons, calm, Bool.and_eq_true] at hc
          simp only [resolve]
          exact (ih e (head :: st) ls rest hf he hc.2).pre
            (fun h => absurd (List.isEmpty_iff.1 hc.1) h)
        | line =>
          simp only [List.map_cons, calm, Bool.and_eq_true] at hc
          simp only [resolve]
          exact (ih e (head :: st) ls rest hf he hc.2).pre
            (fun h => absurd (List.isEmpty_iff.1 hc.1) h)
        | indentation n =>
          simp only [List.map_cons, calm, Bool.and_eq_true, Bool.or_eq_true, beq_iff_eq] at hc
          simp only [resolve]
          have hi := ih e (head :: st) ls rest hf he hc.2
          split
          · exact hi
          · rename_i hn
            exact hi.pre (fun h => absurd (List.isEmpty_iff.1 (hc.1.resolve_right hn)) h)
        | space =>
          simp only [List.map_cons, calm] at hc
          simp only [resolve]
          exact (ih e (head :: st) ls rest hf he hc).pre (fun _ a ha => by
            rw [List.mem_singleton.1 ha]; exact ⟨rfl, rfl⟩)
        | literal s =>
          simp only [List.map_cons, calm] at hc
          simp only [resolve]
          refine (ih e (head :: st) ls rest hf he hc).pre (fun _ => ?_)
          split
          · exact flat_texts _
          · intro a ha; rw [List.mem_singleton.1 ha]; exact ⟨rfl, rfl⟩
        | lang p i =>
          simp only [List.map_cons, calm] at hc
          simp only [resolve]
          exact (ih e (head :: st) ls rest hf he hc).pre (fun _ => flat_texts _)
        | register p i =>
          simp only [List.map_cons, calm] at hc
          simp only [resolve]
          exact ih e (head :: st) ls rest hf he hc

theorem resolveItems_calm (L : Lang ι) (cfg cfg' : Config) {items : List (Item ι)}
    (hs : calm [[false]] items = true) : resolveItems L cfg items = resolveItems L cfg' items := by
  simp only [resolveItems]
  rw [(resolve_calm L cfg cfg' items.length false [Frame.default] [] items le_rfl (by simp) hs).1]

theorem resolveStreams_calm (L : Lang ι) (cfg cfg' : Config) {ss : List (List (Item ι))}
    (hs : ∀ s ∈ ss, calm [[false]] s = true) : resolveStreams L cfg ss = resolveStreams L cfg' ss := by
  induction ss with
  | nil => rfl
  | cons s ss ih =>
    simp only [resolveStreams]
    rw [resolveItems_calm L cfg cfg' (hs s (by simp)), ih (fun x hx => hs x (by simp [hx]))]

/-- The condition of `C25_any_stream_partial` is stronger. -/
theorem calm_of_sober (l : List (Item ι)) : ∀ st : List Bool, sober st l = true → calm [st] l = true := by
  induction l with
  | nil => intro st _; cases st <;> rfl
  | cons i r ih =>
    intro st h
    cases st with
    | nil => cases r <;> rfl
    | cons q st =>
      cases i <;> simp only [sober, Bool.and_eq_true, Bool.not_eq_true'] at h <;> simp only [calm]
      case openQuote => rw [h.1]; exact ih _ h.2
      all_goals first
        | exact ih _ h
        | simpa using ih _ h

/-- C25. For any stream, well-formed or not, in which no line break and no indentation is asked for in
a string opened directly in a string: formatting fails for every configuration, or the lines are,
for every configuration, the same list of texts, each after the indentation of its level (blank lines
have none); and the text is these lines with the newline of the configuration between them. -/
theorem C25_calm_stream_partial (L : Lang ι) (items : List (Item ι)) (hs : calm [[false]] items = true) :
    (∀ cfg : Config, toVec L cfg items = none ∧ toString L cfg items = none) ∨
    ∃ lines : List (Option Nat × Str), ∀ cfg : Config,
      toVec L cfg items = some (lines.map (fun l => lineStart cfg l.1 ++ l.2)) ∧
      toString L cfg items =
        some (cfg.newline.intercalate (lines.map (fun l => lineStart cfg l.1 ++ l.2))) := by
  have hr : ∀ cfg, resolveItems L cfg items = resolveItems L cfg2 items :=
    fun cfg => resolveItems_calm L cfg cfg2 hs
  cases hx : (resolveItems L cfg2 items).2 with
  | none =>
    left
    intro cfg
    rw [C11_string_is_joined_lines, toVec_eq, hr cfg]
    simp [hx]
  | some b =>
    right
    obtain ⟨lines, hl⟩ := lines_of_acts (resolveItems L cfg2 items).1
    refine ⟨lines, fun cfg => ?_⟩
    rw [C11_string_is_joined_lines, toVec_eq, hr cfg, hx, Option.map_some, hl]
    exact ⟨rfl, rfl⟩

/-- C25. The same for the lines of files, that is for several streams one behind the other. -/
theorem C25_calm_file_partial (L : Lang ι) (ss : List (List (Item ι)))
    (hs : ∀ s ∈ ss, calm [[false]] s = true) :
    (∀ cfg : Config, toFileVec L cfg ss = none) ∨
    ∃ lines : List (Option Nat × Str), ∀ cfg : Config,
      toFileVec L cfg ss = some (lines.map (fun l => lineStart cfg l.1 ++ l.2)) := by
  have hr : ∀ cfg, resolveStreams L cfg ss = resolveStreams L cfg2 ss :=
    fun cfg => resolveStreams_calm L cfg cfg2 hs
  cases hx : (resolveStreams L cfg2 ss).2 with
  | none =>
    left
    intro cfg
    rw [toFileVec_eq, hr cfg]
    simp [hx]
  | some b =>
    right
    obtain ⟨lines, hl⟩ := lines_of_acts (resolveStreams L cfg2 ss).1
    refine ⟨lines, fun cfg => ?_⟩
    rw [toFileVec_eq, hr cfg, hx, Option.map_some, hl]

/-- A string in a string, and a line break behind it, in the outer one. -/
example : calm (ι := Str) [[false]] [lit "a", .line, .openQuote true, lit "b", .openQuote false, lit "c", .space, lit "d",
      .closeQuote, .push, lit "e", .openEval, .indentation 1, lit "f", .closeEval, .closeQuote] = true ∧
    sober (ι := Str) [false] [lit "a", .line, .openQuote true, lit "b", .openQuote false, lit "c", .space, lit "d",
      .closeQuote, .push, lit "e", .openEval, .indentation 1, lit "f", .closeEval, .closeQuote] = false ∧
    toVec plain cfg2 [lit "a", .line, .openQuote true, lit "b", .openQuote false, lit "c", .space, lit "d",
      .closeQuote, .push, lit "e", .openEval, .indentation 1, lit "f", .closeEval, .closeQuote] ≠ none := by
  decide

/-- The stream of `C25_nested_negative` is not calm, and neither is one with an indentation. -/
example : calm (ι := Str) [[false]] [.openQuote false, .openQuote false, lit "a", .push, lit "b", .closeQuote, .closeQuote] =
      false ∧
    calm (ι := Str) [[false]] [.openQuote false, .openQuote false, lit "a", .indentation 1, lit "b", .closeQuote,
      .closeQuote] = false := by decide

end Genco.Props
