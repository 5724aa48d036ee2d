import Verif.Spec.Retab
import Verif.Props.Calm
import Verif.Model.Escape
import Mathlib.Data.List.TakeWhile

/-!
# C104: configurations, and the default one
-/

set_option autoImplicit false

namespace Genco.Props

open Genco Spec

variable {ι : Type}

theorem lineStart_some (cfg : Config) (k : Nat) : lineStart cfg (some k) = tabs cfg.indentation k := by
  cases h : cfg.indentation <;> simp [lineStart, marginText, tabs, tabWidth, tabChar, h]

/-- How many characters of the indentation `i` a line begins with. -/
def leadingTabs (i : Indentation) (line : Str) : Nat := (line.takeWhile (· == tabChar i)).length

theorem lead_tabs (i : Indentation) (k : Nat) (t : Str) : leadingTabs i (tabs i k ++ t) = k * tabWidth i + leadingTabs i t := by
  simp only [tabs, leadingTabs]
  generalize k * tabWidth i = m
  induction m with
  | zero => simp
  | succ m ih => simp only [List.replicate_succ, List.cons_append, List.takeWhile_cons, beq_self_eq_true, if_true,
      List.length_cons, ih]; omega

theorem retab_line (i j : Indentation) (k : Nat) (t : Str) (ht : leadingTabs i t < tabWidth i) :
    retab i j (tabs i k ++ t) = tabs j k ++ t := by
  have h1 : leadingTabs i (tabs i k ++ t) / tabWidth i = k := by
    rw [lead_tabs, Nat.mul_comm, Nat.mul_add_div (by omega), Nat.div_eq_of_lt ht, Nat.add_zero]
  rw [leadingTabs] at h1
  rw [retab, h1]
  congr 1
  simp [tabs]

theorem retab_start (c cfg : Config) (m : Option Nat) (t : Str)
    (ht : leadingTabs c.indentation t < tabWidth c.indentation) :
    retab c.indentation cfg.indentation (lineStart c m ++ t) = lineStart cfg m ++ t := by
  cases m with
  | none =>
    have := retab_line c.indentation cfg.indentation 0 t ht
    simpa [tabs, lineStart] using this
  | some k => rw [lineStart_some, lineStart_some, retab_line _ _ _ _ ht]

/-- The lines without any indentation. -/
theorem bare_lines (nl : Str) (lines : List (Option Nat × Str)) :
    lines.map (fun l => lineStart ⟨.space 0, nl⟩ l.1 ++ l.2) = lines.map (·.2) := by
  apply List.map_congr_left
  rintro ⟨m, t⟩ -
  cases m <;> simp [lineStart, marginText]

/-- What the lines of the output have to be like, to see where the indentation ends: without any
indentation, none begins with a full level of the indentation `i`. -/
def TabsShow (i : Indentation) (bare : List Str) : Prop := ∀ l ∈ bare, leadingTabs i l < tabWidth i

theorem retab_lines (c cfg : Config) (lines : List (Option Nat × Str))
    (h : ∀ l ∈ lines, leadingTabs c.indentation l.2 < tabWidth c.indentation) :
    lines.map (fun l => lineStart cfg l.1 ++ l.2) =
      (lines.map (fun l => lineStart c l.1 ++ l.2)).map (retab c.indentation cfg.indentation) := by
  rw [List.map_map]
  apply List.map_congr_left
  intro l hl
  simp only [Function.comp_apply]
  rw [retab_start c cfg l.1 l.2 (h l hl)]

theorem lineStart_no_break (c : Config) (m : Option Nat) : '\n' ∉ lineStart c m := by
  cases m with
  | none => simp [lineStart]
  | some k =>
    rw [lineStart_some]
    intro h
    have := List.eq_of_mem_replicate h
    cases hc : c.indentation <;> rw [hc] at this <;> simp [tabChar] at this

/-- C104. What the makers of configurations do: the default is four spaces and LF, each of the two
changes what it is named for and nothing else, of several the last counts, and their order does not
matter; every configuration can be made. -/
theorem C104_makers (c : Config) (i i' : Indentation) (nl nl' : Str) :
    (Config.fromLang.indentation = .space 4 ∧ Config.fromLang.newline = "\n".toList) ∧
    ((c.withIndentation i).indentation = i ∧ (c.withIndentation i).newline = c.newline) ∧
    ((c.withNewline nl).newline = nl ∧ (c.withNewline nl).indentation = c.indentation) ∧
    (c.withIndentation i).withIndentation i' = c.withIndentation i' ∧
    (c.withNewline nl).withNewline nl' = c.withNewline nl' ∧
    (c.withIndentation i).withNewline nl = (c.withNewline nl).withIndentation i ∧
    c = (Config.fromLang.withIndentation c.indentation).withNewline c.newline := by
  refine ⟨⟨rfl, rfl⟩, ⟨rfl, rfl⟩, ⟨rfl, rfl⟩, rfl, rfl, rfl, rfl⟩

/-- C104. The lines in any configuration are the lines in the configuration `c`, with the indentation
replaced: for every stream that asks for no line break in a string opened directly in a string, if no line
without its indentation begins with a full level of the indentation of `c`. -/
theorem C104_lines_partial (L : Lang ι) (items : List (Item ι)) (hs : calm [[false]] items = true) (c : Config)
    (hb : ∀ bare, toVec L (c.withIndentation (.space 0)) items = some bare → TabsShow c.indentation bare) (cfg : Config) :
    toVec L cfg items = (toVec L c items).map (List.map (retab c.indentation cfg.indentation)) := by
  rcases C25_calm_stream_partial L items hs with h | ⟨lines, h⟩
  · rw [(h cfg).1, (h c).1]; rfl
  · rw [(h cfg).1, (h c).1]
    have hb := hb _ (h _).1
    rw [Config.withIndentation, bare_lines] at hb
    rw [Option.map_some, ← retab_lines c cfg lines fun l hl => hb _ (List.mem_map_of_mem hl)]

/-- C104. The same for the lines of files. -/
theorem C104_file_lines_partial (L : Lang ι) (ss : List (List (Item ι))) (hs : ∀ s ∈ ss, calm [[false]] s = true) (c : Config)
    (hb : ∀ bare, toFileVec L (c.withIndentation (.space 0)) ss = some bare → TabsShow c.indentation bare) (cfg : Config) :
    toFileVec L cfg ss = (toFileVec L c ss).map (List.map (retab c.indentation cfg.indentation)) := by
  rcases C25_calm_file_partial L ss hs with h | ⟨lines, h⟩
  · rw [h cfg, h c]; rfl
  · rw [h cfg, h c]
    have hb := hb _ (h _)
    rw [Config.withIndentation, bare_lines] at hb
    rw [Option.map_some, ← retab_lines c cfg lines fun l hl => hb _ (List.mem_map_of_mem hl)]

theorem lead_four {l : Str} (h : ¬ "    ".toList <+: l) : leadingTabs (.space 4) l < tabWidth (.space 4) := by
  simp only [tabWidth]
  by_contra hn
  apply h
  have h1 : l.takeWhile (· == ' ') = List.replicate (leadingTabs (.space 4) l) ' ' :=
    List.eq_replicate_iff.2 ⟨rfl, fun c hc => by simpa using List.mem_takeWhile_imp hc⟩
  have h2 : List.replicate (leadingTabs (.space 4) l) ' ' <+: l := h1 ▸ List.takeWhile_prefix _
  refine List.IsPrefix.trans ?_ h2
  obtain ⟨d, hd⟩ := Nat.exists_eq_add_of_le (Nat.le_of_not_lt hn)
  rw [hd, List.replicate_add]
  exact ⟨_, rfl⟩

theorem toVec_ne_nil {L : Lang ι} {cfg : Config} {items : List (Item ι)} {ls : List Str}
    (h : toVec L cfg items = some ls) : ls ≠ [] := by
  simp only [toVec, okOf] at h
  split at h
  · cases h; simp [VecState.intoVec]
  · cases h

theorem toFileVec_ne_nil {L : Lang ι} {cfg : Config} {ss : List (List (Item ι))} {ls : List Str}
    (h : toFileVec L cfg ss = some ls) : ls ≠ [] := by
  simp only [toFileVec, okOf] at h
  split at h
  · cases h; simp [VecState.intoVec]
  · cases h

/-- C104. From the lines of `to_vec` and `to_file_vec`, which are indented by four spaces. -/
theorem C104_default_lines_partial (L : Lang ι) (cfg : Config) :
    (∀ items : List (Item ι), calm [[false]] items = true →
      (∀ bare, toVec L ⟨.space 0, ['\n']⟩ items = some bare → ∀ l ∈ bare, ¬ "    ".toList <+: l) →
      toVec L cfg items = (plainVec L items).map (List.map (retab (.space 4) cfg.indentation))) ∧
    (∀ ss : List (List (Item ι)), (∀ s ∈ ss, calm [[false]] s = true) →
      (∀ bare, toFileVec L ⟨.space 0, ['\n']⟩ ss = some bare → ∀ l ∈ bare, ¬ "    ".toList <+: l) →
      toFileVec L cfg ss = (plainFileVec L ss).map (List.map (retab (.space 4) cfg.indentation))) :=
  ⟨fun items hs hb => C104_lines_partial L items hs .fromLang (fun bare h l hl => lead_four (hb bare h l hl)) cfg,
    fun ss hs hb => C104_file_lines_partial L ss hs .fromLang (fun bare h l hl => lead_four (hb bare h l hl)) cfg⟩

/-- C104. The text in any configuration is the text of `to_string`, which has lines ended by LF and is
indented by four spaces, with the newlines and the indentation replaced in the finished text: if no line
without its indentation begins with four spaces or has a line break in it. -/
theorem C104_text_partial (L : Lang ι) (items : List (Item ι)) (hs : calm [[false]] items = true)
    (hb : ∀ bare, toVec L (Config.fromLang.withIndentation (.space 0)) items = some bare →
      ∀ l ∈ bare, ¬ "    ".toList <+: l ∧ '\n' ∉ l) (cfg : Config) :
    toString L cfg items = (plainString L items).map (convert (.space 4) cfg) := by
  rw [plainString, C11_string_is_joined_lines, C11_string_is_joined_lines,
    C104_lines_partial L items hs .fromLang (fun bare h l hl => lead_four (hb bare h l hl).1) cfg]
  rcases C25_calm_stream_partial L items hs with h | ⟨lines, h⟩
  · rw [(h _).1]; rfl
  · have hb := hb _ (h _).1
    rw [Config.withIndentation, bare_lines] at hb
    have hne := toVec_ne_nil (h Config.fromLang).1
    rw [(h _).1]
    simp only [Option.map_some, convert]
    have := List.splitOn_intercalate '\n' (ls := lines.map fun l => lineStart Config.fromLang l.1 ++ l.2)
      (by
        intro l hl
        obtain ⟨⟨m, t⟩, hm, rfl⟩ := List.mem_map.1 hl
        have := (hb t (List.mem_map_of_mem (f := (·.2)) hm)).2
        simp only [List.mem_append, not_or]
        exact ⟨lineStart_no_break _ _, this⟩) hne
    rw [show Config.fromLang.newline = ['\n'] from rfl, this]
    rfl

theorem intercalate_end (sep : Str) (ls : List Str) (h : ls ≠ []) :
    sep.intercalate (ls ++ [[]]) = sep.intercalate ls ++ sep := by
  induction ls with
  | nil => exact absurd rfl h
  | cons l ls ih =>
    cases ls with
    | nil => simp [List.intercalate]
    | cons m ls =>
      have := ih (by simp)
      simp [List.intercalate, List.intersperse, List.append_assoc] at this ⊢
      exact this

/-- C104. The same for the text of `to_file_string`. -/
theorem C104_file_text_partial (L : Lang ι) (ss : List (List (Item ι))) (hs : ∀ s ∈ ss, calm [[false]] s = true)
    (hb : ∀ bare, toFileVec L (Config.fromLang.withIndentation (.space 0)) ss = some bare →
      ∀ l ∈ bare, ¬ "    ".toList <+: l ∧ '\n' ∉ l) (cfg : Config) :
    toFileString L cfg ss = (plainFileString L ss).map (convert (.space 4) cfg) := by
  rw [plainFileString, C12_file_trailing_newline, C12_file_trailing_newline,
    C104_file_lines_partial L ss hs .fromLang (fun bare h l hl => lead_four (hb bare h l hl).1) cfg]
  rcases C25_calm_file_partial L ss hs with h | ⟨lines, h⟩
  · rw [h]; rfl
  · have hb := hb _ (h _)
    rw [Config.withIndentation, bare_lines] at hb
    have hne := toFileVec_ne_nil (h Config.fromLang)
    rw [h]
    simp only [Option.map_some, convert]
    have hc := List.splitOn_intercalate '\n' (ls := (lines.map fun l => lineStart Config.fromLang l.1 ++ l.2) ++ [[]])
      (by
        intro l hl
        rcases List.mem_append.1 hl with hl | hl
        · obtain ⟨⟨m, t⟩, hm, rfl⟩ := List.mem_map.1 hl
          have := (hb t (List.mem_map_of_mem (f := (·.2)) hm)).2
          simp only [List.mem_append, not_or]
          exact ⟨lineStart_no_break _ _, this⟩
        · rw [List.mem_singleton.1 hl]; simp) (by simp)
    rw [intercalate_end _ _ hne] at hc
    rw [show Config.fromLang.newline = ['\n'] from rfl, hc, List.map_append, List.map_singleton,
      show retab (.space 4) cfg.indentation [] = [] by simp [retab, tabs],
      intercalate_end _ _ (by simpa using hne)]
    rfl

/-- C104 needs its conditions: a line that begins with four spaces of its own; a line break inside of a
text, here of one followed by four spaces; and a line break in a string opened directly in a string. -/
theorem C104_false :
    (toString plain ⟨.tab, ['\n']⟩ [lit "    a"] = some "    a".toList ∧
      (plainString plain [lit "    a"]).map (convert (.space 4) ⟨.tab, ['\n']⟩) = some "\ta".toList) ∧
    (toString plain ⟨.space 4, ['\r', '\n']⟩ [lit "a\nb"] = some "a\nb".toList ∧
      (plainString plain [lit "a\nb"]).map (convert (.space 4) ⟨.space 4, ['\r', '\n']⟩) = some "a\r\nb".toList) ∧
    (toString (rustLang fun s : Str => [s]) ⟨.space 4, ['\r', '\n']⟩
        [.openQuote false, .openQuote false, lit "a", .indentation 1, lit "b", .closeQuote, .closeQuote] ≠
      (plainString (rustLang fun s : Str => [s]) [.openQuote false, .openQuote false, lit "a", .indentation 1, lit "b", .closeQuote,
        .closeQuote]).map (convert (.space 4) ⟨.space 4, ['\r', '\n']⟩)) := by
  refine ⟨⟨?_, ?_⟩, ⟨?_, ?_⟩, ?_⟩ <;> decide +kernel

/-- A file with two levels, converted to tabs and CRLF; one line begins with three spaces of its own. -/
def retabFile : List (List (Item Str)) :=
  [[lit "use x;", .line], [lit "a", .indentation 1, lit "b", .indentation 1, .space, lit "  c", .indentation (-2), lit "d"]]

example : (∀ s ∈ retabFile, calm [[false]] s = true) ∧
    toFileVec plain (Config.fromLang.withIndentation (.space 0)) retabFile =
      some ["use x;".toList, [], "a".toList, "b".toList, "   c".toList, "d".toList] ∧
    plainFileString plain retabFile = some "use x;\n\na\n    b\n           c\nd\n".toList ∧
    toFileString plain ((Config.fromLang.withIndentation .tab).withNewline ['\r', '\n']) retabFile =
      some "use x;\r\n\r\na\r\n\tb\r\n\t\t   c\r\nd\r\n".toList ∧
    plainFileVec plain retabFile =
      some ["use x;".toList, [], "a".toList, "    b".toList, "           c".toList, "d".toList] ∧
    plainVec plain [lit "a", .indentation 1, lit "b"] = some ["a".toList, "    b".toList] := by
  refine ⟨?_, ?_, ?_, ?_, ?_, ?_⟩ <;> decide +kernel

end Genco.Props
