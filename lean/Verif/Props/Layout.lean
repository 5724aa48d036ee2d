import Verif.Proofs.Lines
import Verif.Props.Writers
import Verif.Spec.Tokens

/-!
# Properties of the layout (C13–C16, C24, C25)
-/

set_option autoImplicit false

namespace Genco.Props

open Genco Spec

variable {ι σ : Type}

/-- C13. Streams without quotes are rendered as the layout specification says: in
particular each text that starts a line is preceded by exactly the indentation
`marginText` (level times width, or level tabs) plus the pending spaces,
whatever the level and width. -/
theorem C13_layout (L : Lang ι) (cfg : Config) (items : List (Item ι))
    (hp : ∀ i ∈ items, isPlain i = true) :
    toString L cfg items = some (render cfg (items.flatMap (plainActs L.langItem))) := by
  rw [toString_eq, resolveItems_plain L cfg items hp]
  rfl

/-- C13, also for streams with properly nested quotes. -/
theorem C13_layout_quotes (L : Lang ι) (cfg : Config) (c : Code ι) (hc : c.plain = true) :
    toString L cfg c.items = some (render cfg (c.acts L cfg)) := by
  rw [toString_eq, resolveItems_code L cfg c hc]
  rfl

theorem indSum_acts (f : ι → List Str) (items : List (Item ι)) :
    ((items.flatMap (plainActs f)).map actInd).sum = indSum items := by
  induction items with
  | nil => rfl
  | cons i r ih =>
    rw [List.flatMap_cons, List.map_append, List.sum_append, ih,
      show indSum (i :: r) = indOf i + indSum r by simp [indSum]]
    congr 1
    cases i with
    | lang p i =>
      have : ((f i).map (fun s => actInd (.text s))).sum = 0 := by
        induction f i with
        | nil => rfl
        | cons s l ih => simp [actInd]
      simp [plainActs, indOf, Function.comp_def, this]
    | indentation n => by_cases hn : n = 0 <;> simp [plainActs, indOf, actInd, hn]
    | _ => simp [plainActs, indOf, actInd]

/-- C13/C24. After any plain stream ending in a text, an indentation item of any
amount and any number of spaces, the next text starts a new line with an
indentation of exactly `max 0 level` units, where the level is the sum of all
indentation items so far (also when it has been negative before), plus the
spaces. -/
theorem C13_indentation_width (L : Lang ι) (cfg : Config) (items : List (Item ι))
    (hp : ∀ i ∈ items, isPlain i = true) (t s : ItemStr) (ht : t.text ≠ []) (hs : s.text ≠ [])
    (d : Int) (hd : d ≠ 0) (k : Nat) :
    toString L cfg (items ++ .literal t :: .indentation d :: (List.replicate k .space ++ [.literal s])) =
      (toString L cfg (items ++ [.literal t])).map (fun out =>
        out ++ cfg.newline ++
        (match cfg.indentation with
          | .space n => List.replicate ((indSum items + d).toNat * n) ' '
          | .tab => List.replicate (indSum items + d).toNat '\t') ++
        List.replicate k ' ' ++ s.text) := by
  rw [C13_layout, C13_layout]
  rotate_left
  · intro i hi
    simp only [List.mem_append, List.mem_singleton] at hi
    rcases hi with hi | hi
    · exact hp i hi
    · simp [hi, isPlain]
  · intro i hi
    simp only [List.mem_append, List.mem_cons, List.mem_replicate,
      List.not_mem_nil, or_false] at hi
    rcases hi with hi | hi | hi | hi | hi
    · exact hp i hi
    · simp [hi, isPlain]
    · simp [hi, isPlain]
    · simp [hi.2, isPlain]
    · simp [hi, isPlain]
  rw [Option.map_some]
  congr 1
  have hsum := indSum_acts L.langItem items
  simp only [List.flatMap_append, List.flatMap_cons, List.flatMap_nil, List.append_nil]
  generalize items.flatMap (plainActs L.langItem) = p at hsum ⊢
  have hk : (List.replicate k (Item.space : Item ι)).flatMap (plainActs L.langItem) =
      List.replicate k .space := by
    induction k with
    | zero => rfl
    | succ k ih => simp [List.replicate_succ, ih, plainActs]
  rw [hk]
  have hpieces : ∀ (q r : List Act), piecesFrom [] (q ++ r) = piecesFrom [] q ++ piecesFrom q r := by
    intro q r
    have : ∀ q' : List Act, piecesFrom q' (q ++ r) = piecesFrom q' q ++ piecesFrom (q' ++ q) r := by
      induction q with
      | nil => intro q'; simp [piecesFrom]
      | cons a q ih =>
        intro q'
        cases a <;> simp [piecesFrom, ih]
    simpa using this []
  have hmid : ∀ (q : List Act) (r : List Act), piecesFrom q (List.replicate k Act.space ++ r) =
      piecesFrom (q ++ List.replicate k .space) r := by
    clear hk
    induction k with
    | zero => intro q r; simp
    | succ k ih => intro q r; simp [List.replicate_succ, piecesFrom, ih]
  simp only [render, pieces, plainActs, hd, if_false]
  rw [show p ++ ([Act.text t.text] ++ ([Act.indent d] ++
      (List.replicate k Act.space ++ [Act.text s.text]))) =
      (p ++ [Act.text t.text]) ++ ([Act.indent d] ++
      (List.replicate k Act.space ++ [Act.text s.text])) by simp, hpieces, List.flatMap_append]
  simp only [List.singleton_append, piecesFrom, hmid, hs, ne_eq, not_false_eq_true, if_true,
    List.append_nil, List.flatMap_cons, List.flatMap_nil, List.append_assoc]
  congr 1
  have hgap : gap (p ++ ([Act.text t.text] ++ ([Act.indent d] ++ List.replicate k .space))) =
      [Act.indent d] ++ List.replicate k .space := by
    simp [gap, afterLast, visible, ht]
  have hfirst : isFirst (p ++ ([Act.text t.text] ++ ([Act.indent d] ++ List.replicate k .space))) =
      false := by
    simp [isFirst, visible, ht]
  have hlevel : level (p ++ ([Act.text t.text] ++ ([Act.indent d] ++ List.replicate k .space))) =
      (indSum items + d).toNat := by
    simp only [level, List.map_append, List.sum_append, hsum, List.map_cons, List.map_nil,
      List.sum_cons, List.sum_nil, actInd, List.map_replicate]
    congr 1
    simp
  have hbreaks : breaks (p ++ ([Act.text t.text] ++ ([Act.indent d] ++ List.replicate k .space))) =
      1 := by
    rw [breaks, hfirst, hgap]
    simp
  have hseps : seps (p ++ ([Act.text t.text] ++ ([Act.indent d] ++ List.replicate k .space))) =
      k := by
    rw [seps, hfirst, hgap]
    simp only [Bool.false_eq_true, if_false]
    simp [afterLast, List.countP_replicate]
  rw [show p ++ ([Act.text t.text, Act.indent d] ++ List.replicate k Act.space) =
    p ++ ([Act.text t.text] ++ ([Act.indent d] ++ List.replicate k .space)) by simp]
  simp only [place, Piece.render, hbreaks, hseps, hfirst, hlevel]
  simp [lineStart, marginText]
  rfl

/-- Non-trivial instance: two levels down from minus one, wide indentation. -/
example : toString plain ⟨.space 130, ['\n']⟩ [.indentation (-3), lit "a", .indentation 4, .space, lit "b"] =
    some ("a\n".toList ++ List.replicate 130 ' ' ++ " b".toList) := by decide +kernel

/-- C16. Removing spaces, tabs and line breaks, the output of a stream with
properly nested quotes is the concatenation of its texts: literals, escaped
literals, delimiters and language items. -/
theorem C16_text_preserved (L : Lang ι) (cfg : Config) (hn : cfg.newline.filter inked = [])
    (c : Code ι) (hc : c.plain = true) :
    (toString L cfg c.items).map (List.filter inked) =
      some ((actTexts (c.acts L cfg)).filter inked) := by
  rw [C13_layout_quotes L cfg c hc, Option.map_some]
  congr 1
  exact filter_pieces cfg hn [] _

/-- C16 for streams without quotes, in terms of the items only. -/
theorem C16_text_preserved_plain (L : Lang ι) (cfg : Config) (hn : cfg.newline.filter inked = [])
    (items : List (Item ι)) (hp : ∀ i ∈ items, isPlain i = true) :
    (toString L cfg items).map (List.filter inked) =
      some ((items.flatMap (fun i => match i with
        | .literal s => s.text
        | .lang _ i => (L.langItem i).flatten
        | _ => [])).filter inked) := by
  rw [C13_layout L cfg items hp, Option.map_some]
  congr 1
  have hr : (render cfg (items.flatMap (plainActs L.langItem))).filter inked =
    (actTexts (items.flatMap (plainActs L.langItem))).filter inked := filter_pieces cfg hn [] _
  rw [hr]
  congr 1
  have happ : ∀ a b : List Act, actTexts (a ++ b) = actTexts a ++ actTexts b := by
    intro a b
    induction a with
    | nil => rfl
    | cons x a ih => cases x <;> simp [actTexts, ih]
  have hmap : ∀ l : List Str, actTexts (l.map .text) = l.flatten := by
    intro l
    induction l with
    | nil => rfl
    | cons s l ih => simp [actTexts, ih]
  clear hp hr
  induction items with
  | nil => rfl
  | cons i r ih =>
    rw [List.flatMap_cons, happ, ih, List.flatMap_cons]
    congr 1
    cases i with
    | lang p i => simp [plainActs, hmap]
    | indentation n => by_cases h : n = 0 <;> simp [plainActs, h, actTexts]
    | _ => simp [plainActs, actTexts]

example : (toString plain cfg2 [lit "a b", .line, .lang 0 "c d".toList, .indentation 2, lit "e"]).map
    (List.filter inked) = some "abcde".toList := by decide

/-- C24. The rendered level of a text is `max 0` of all indentation so far; a
deficit is remembered: below or at zero the text starts at column zero. -/
theorem C24_negative_indentation (L : Lang ι) (cfg : Config) (items : List (Item ι))
    (hp : ∀ i ∈ items, isPlain i = true) (t s : ItemStr) (ht : t.text ≠ []) (hs : s.text ≠ [])
    (d : Int) (hd : d ≠ 0) :
    (indSum items + d ≤ 0 →
      toString L cfg (items ++ [.literal t, .indentation d, .literal s]) =
        (toString L cfg (items ++ [.literal t])).map (· ++ cfg.newline ++ s.text)) ∧
    (0 < indSum items + d →
      toString L cfg (items ++ [.literal t, .indentation d, .literal s]) =
        (toString L cfg (items ++ [.literal t])).map (· ++ cfg.newline ++
          marginText cfg (indSum items + d).toNat ++ s.text)) := by
  have h := C13_indentation_width L cfg items hp t s ht hs d hd 0
  simp only [List.replicate_zero, List.nil_append, List.append_nil] at h
  refine ⟨fun h0 => ?_, fun h0 => ?_⟩
  · rw [h]
    have : (indSum items + d).toNat = 0 := by omega
    rw [this]
    congr 1
    funext out
    cases cfg.indentation <;> simp
  · rw [h]
    rfl

example : toString plain cfg2 [.indentation (-2), lit "a", .indentation 1, lit "b", .indentation 3,
    lit "c"] = some "a\nb\n    c".toList := by decide

/-- C25. For streams with properly nested quotes where strings quoted inside
strings have no line breaks of their own: the lines are, for every
configuration, the same list of texts, each after its indentation level (blank
lines have none); so the newline setting does not matter for `to_vec`, and the
indentation setting only affects the leading indentation. -/
theorem C25_configuration_partial (L : Lang ι) (c : Code ι) (hc : c.plain = true)
    (hf : c.flatInner = true) :
    ∃ lines : List (Option Nat × Str), ∀ cfg : Config,
      toVec L cfg c.items = some (lines.map (fun l => lineStart cfg l.1 ++ l.2)) := by
  refine ⟨(absActs .new ⟨(none, []), []⟩ (c.acts L cfg2)).target ++
    [(absActs .new ⟨(none, []), []⟩ (c.acts L cfg2)).buf], fun cfg => ?_⟩
  rw [toVec_eq, resolveItems_code L cfg c hc, code_acts_cfg L c hf cfg cfg2]
  simp only [Option.map_some]
  congr 1
  have := absActs_conc cfg .new ⟨(none, []), []⟩ (c.acts L cfg2) (fun _ => rfl)
  have h0 : AbsVec.conc cfg ⟨(none, []), []⟩ = VecState.new := rfl
  rw [h0] at this
  rw [this]
  simp [AbsVec.conc, VecState.intoVec, AbsLine.text]

/-- C25: `to_vec` does not depend on the newline setting. -/
theorem C25_newline_partial (L : Lang ι) (c : Code ι) (hc : c.plain = true)
    (hf : c.flatInner = true) (cfg : Config) (nl : Str) :
    toVec L { cfg with newline := nl } c.items = toVec L cfg c.items := by
  obtain ⟨lines, h⟩ := C25_configuration_partial L c hc hf
  rw [h, h]
  rfl

/-- C25 needs the condition: the line break of a string quoted inside a string
ends up inside the text, so it follows the newline setting. -/
theorem C25_nested_negative : ∃ items : List (Item Str),
    toVec plain ⟨.space 2, ['\n']⟩ items ≠ toVec plain ⟨.space 2, ['\r', '\n']⟩ items :=
  ⟨[.openQuote false, .openQuote false, lit "a", .push, lit "b", .closeQuote, .closeQuote],
    by decide⟩

example : (Code.item (lit "a") (.item .line (.quote true (.item (lit "x") (.eval
    (.item (.indentation 1) (.item (lit "y") .nil)) .nil)) .nil)) : Code Str).flatInner = true := by
  decide

end Genco.Props
