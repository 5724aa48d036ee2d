import Verif.Props.Reflow
import Verif.Proofs.Header

/-!
# C25: configuration changes only whitespace, for any stream
-/

set_option autoImplicit false

namespace Genco.Props

open Genco Spec Reflow

variable {ι : Type}

theorem resolve_cfg (L : Lang ι) (cfg cfg' : Config) (fuel : Nat) : ∀ (e : Bool) (st : List Frame)
    (items : List (Item ι)), sober (st.map (·.inQuote)) items = true →
    resolve L cfg fuel e st items = resolve L cfg' fuel e st items := by
  induction fuel with
  | zero => intros; rfl
  | succ fuel ih =>
    intro e st items h
    cases items with
    | nil => rfl
    | cons i rest =>
      cases st with
      | nil => rfl
      | cons head st =>
        cases i with
        | openQuote ev =>
          simp only [List.map_cons, sober, Bool.and_eq_true, Bool.not_eq_true'] at h
          simp only [resolve, h.1, Bool.not_false, if_true]
          rw [ih e ({ head with hasEval := ev, inQuote := true } :: st) rest h.2]
        | closeQuote =>
          simp only [List.map_cons, sober] at h
          simp only [resolve]
          rw [ih e ({ head with inQuote := false, hasEval := false } :: st) rest h]
        | openEval =>
          simp only [List.map_cons, sober] at h
          simp only [resolve]
          split
          · split
            · rename_i s rest'
              rw [ih _ _ rest' (by simpa [sober] using h)]
            · rw [ih e (⟨false, false, true⟩ :: head :: st) rest h]
          · rfl
        | closeEval =>
          simp only [List.map_cons, sober] at h
          simp only [resolve]
          rw [ih _ _ rest h]
        | _ =>
          simp only [List.map_cons, sober] at h
          simp only [resolve]
          rw [ih _ (head :: st) rest h]

/-- The lines made by formatting actions, for every configuration. -/
theorem lines_of_acts (acts : List Act) : ∃ lines : List (Option Nat × Str), ∀ cfg : Config,
    (vecActs cfg .new .new acts).intoVec = lines.map (fun l => lineStart cfg l.1 ++ l.2) := by
  refine ⟨(absActs .new ⟨(none, []), []⟩ acts).target ++ [(absActs .new ⟨(none, []), []⟩ acts).buf],
    fun cfg => ?_⟩
  have := absActs_conc cfg .new ⟨(none, []), []⟩ acts (fun _ => rfl)
  have h0 : AbsVec.conc cfg ⟨(none, []), []⟩ = VecState.new := rfl
  rw [h0] at this
  rw [this]
  simp [AbsVec.conc, VecState.intoVec, AbsLine.text]

theorem resolveItems_cfg (L : Lang ι) (cfg cfg' : Config) {items : List (Item ι)}
    (hs : sober [false] items = true) : resolveItems L cfg items = resolveItems L cfg' items := by
  simp only [resolveItems]
  rw [resolve_cfg L cfg cfg' items.length false [Frame.default] items hs]

theorem resolveStreams_cfg (L : Lang ι) (cfg cfg' : Config) {ss : List (List (Item ι))}
    (hs : ∀ s ∈ ss, sober [false] s = true) : resolveStreams L cfg ss = resolveStreams L cfg' ss := by
  induction ss with
  | nil => rfl
  | cons s ss ih =>
    simp only [resolveStreams]
    rw [resolveItems_cfg L cfg cfg' (hs s (by simp)), ih (fun x hx => hs x (by simp [hx]))]

/-- C25. For any stream, well-formed or not, in which no string is opened directly in a
string: formatting fails for every configuration, or the lines are, for every configuration,
the same list of texts, each after the indentation of its level (blank lines have none); and
the text is these lines with the newline of the configuration between them. -/
theorem C25_any_stream_partial (L : Lang ι) (items : List (Item ι)) (hs : sober [false] items = true) :
    (∀ cfg : Config, toVec L cfg items = none ∧ toString L cfg items = none) ∨
    ∃ lines : List (Option Nat × Str), ∀ cfg : Config,
      toVec L cfg items = some (lines.map (fun l => lineStart cfg l.1 ++ l.2)) ∧
      toString L cfg items =
        some (cfg.newline.intercalate (lines.map (fun l => lineStart cfg l.1 ++ l.2))) := by
  have hr : ∀ cfg, resolveItems L cfg items = resolveItems L cfg2 items :=
    fun cfg => resolveItems_cfg L cfg cfg2 hs
  cases hx : (resolveItems L cfg2 items).2 with
  | none =>
    left
    intro cfg
    rw [C11_string_is_joined_lines, toVec_eq, hr cfg]
    simp [hx]
  | some b =>
    right
    obtain ⟨lines, hl⟩ := lines_of_acts (resolveItems L cfg2 items).1
    refine ⟨lines, fun cfg => ?_⟩
    rw [C11_string_is_joined_lines, toVec_eq, hr cfg, hx, Option.map_some, hl]
    exact ⟨rfl, rfl⟩

/-- C25. The same for the lines of files, that is for several streams one behind the other. -/
theorem C25_any_file_partial (L : Lang ι) (ss : List (List (Item ι)))
    (hs : ∀ s ∈ ss, sober [false] s = true) :
    (∀ cfg : Config, toFileVec L cfg ss = none) ∨
    ∃ lines : List (Option Nat × Str), ∀ cfg : Config,
      toFileVec L cfg ss = some (lines.map (fun l => lineStart cfg l.1 ++ l.2)) := by
  have hr : ∀ cfg, resolveStreams L cfg ss = resolveStreams L cfg2 ss :=
    fun cfg => resolveStreams_cfg L cfg cfg2 hs
  cases hx : (resolveStreams L cfg2 ss).2 with
  | none =>
    left
    intro cfg
    rw [toFileVec_eq, hr cfg]
    simp [hx]
  | some b =>
    right
    obtain ⟨lines, hl⟩ := lines_of_acts (resolveStreams L cfg2 ss).1
    refine ⟨lines, fun cfg => ?_⟩
    rw [toFileVec_eq, hr cfg, hx, Option.map_some, hl]

/-- A string is not closed, and an evaluation in it is not closed: no nested stream. -/
example : sober (ι := Str) [false] [lit "a", .indentation 1, .openQuote true, lit "b", .openEval, .openQuote false,
    lit "c", .closeQuote, .line, lit "d"] = true ∧
    toVec plain cfg2 [lit "a", .indentation 1, .openQuote true, lit "b", .openEval, .openQuote false,
      lit "c", .closeQuote, .line, lit "d"] = some ["a".toList, "  \"b\"c\"".toList, [], "  d".toList] := by
  decide

example : sober (ι := Str) [false] [lit "a", .closeQuote] = true ∧ toVec plain cfg2 [lit "a", .closeQuote] = none := by
  decide

end Genco.Props
