import Verif.Proofs.Wrap
import Verif.Props.I16
import Verif.Props.Gaps

/-!
# Properties of the 16-bit counters where they wrap around (C86)

Without overflow checks, as release builds are made, an addition on `i16` wraps around.
`historyW` and `formatItemsW` are building and formatting with such counters.
-/

set_option autoImplicit false

namespace Genco.Props

open Genco Spec Tokens

variable {ι σ : Type}

/-- C86. Where a build with overflow checks does not panic, a build without them gives the same:
the same stream of any calls, and the same result of formatting any items with any writer from
any state. -/
theorem C86_agrees (cs : List (Call ι)) (t : Tokens ι) (h : historyC cs = some t) :
    historyW cs = t ∧
    ∀ (L : Lang ι) (cfg : Config) (σ : Type) (W : Writer σ) (items : List (Item ι)) (f : Fmt σ)
      (r : Except (Fmt σ) (Fmt σ)),
      formatItemsC L cfg W items f = some r → formatItemsW L cfg W items f = r :=
  ⟨historyW_of_C cs t h, fun L cfg _ W items f r hr => formatItemsW_of_C L cfg W items f r hr⟩

example : historyC (ι := Nat) [.append (lit "a"), .indent, .stream [.line, .indentation 32766]] =
    some (historyW [.append (lit "a"), .indent, .stream [.line, .indentation 32766]]) := by rfl

/-- C86. With no more than 32767 indentation steps nothing wraps around. -/
theorem C86_small (cs : List (Call ι)) (h : indentSteps cs ≤ 32767) (L : Lang ι) (cfg : Config) :
    historyW cs = history cs ∧ toStringW L cfg (historyW cs).items = toString L cfg (history cs).items := by
  obtain ⟨h1, h2⟩ := C08_no_overflow cs h
  have h3 := (C86_agrees cs _ h1).1
  refine ⟨h3, ?_⟩
  rw [h3]
  unfold toStringW toString
  rw [formatItemsW_of_C _ _ _ _ _ _ (h2 L cfg Str stringWriter [])]

/-- C86. Whatever wraps around, the stream is in normal form (C01), has all that was handed over
but white space, in order (C05), and all language items are found in it (C03). -/
theorem C86_stream (cs : List (Call ι)) :
    NormalForm (historyW cs).items ∧
    ((historyW cs).items.filter (fun i => !isWs i)).map erase = content cs ∧
    (historyW cs).walkImports = (inserted cs).reverse := by
  have hk := keepRev_extendW (cs.flatMap callItems) Tokens.new
  rw [← historyW_extendW, show keepRev (Tokens.new (ι := ι)).rev = [] from rfl, List.append_nil] at hk
  refine ⟨?_, ?_, ?_⟩
  · rw [historyW_extendW]
    exact (nfRev_iff _).1 (nfRev_extendW _ Tokens.new trivial)
  · have := congrArg List.reverse hk
    simpa [keepRev, items, content, List.filter_reverse, List.map_reverse] using this
  · have hl := linked_extendW (cs.flatMap callItems) Tokens.new (linked_fromIter [])
    rw [← historyW_extendW] at hl
    unfold walkImports
    rw [hl.2]
    unfold items
    have := walkFrom_eq _ hl.1 [] ((historyW cs).rev.reverse.length + 1) (by simp)
    rw [List.append_nil] at this
    rw [this, filterMap_langOf_keepRev, inserted, filterMap_langOf_keepRev (cs.flatMap callItems), hk,
      List.filterMap_reverse]

example : historyW (ι := Nat) [.appendLang 1, .stream [.indentation 32767], .indent, .push, .register 2] =
      ⟨[.register 1 2, .push, .indentation (-32768), .lang 0 1], 4⟩ ∧
    (historyW (ι := Nat) [.appendLang 1, .stream [.indentation 32767], .indent, .push, .register 2]).walkImports =
      [2, 1] := by decide

/-- C86. What the counters of a stream have lost or gained are multiples of 65536: each indentation
item has the amount in the range of 16 bits that the stream with unbounded counters has but for
such a multiple, and is missing where that is 0. So the indentation of all of the stream is the
one asked for, but for a multiple of 65536. -/
theorem C86_counters (cs : List (Call ι)) (h : ∀ i ∈ cs.flatMap callItems, fits16 (indOf i) = true) :
    (historyW cs).items.map erase = (history cs).items.filterMap narrow ∧
    (∀ n : Int, narrow (ι := ι) (.indentation n) = none → n % 65536 = 0) ∧
    (∀ (n : Int) (i : Item ι), narrow (.indentation n) = some i →
      ∃ m : Int, i = .indentation m ∧ -32768 ≤ m ∧ m ≤ 32767 ∧ (n - m) % 65536 = 0) ∧
    (indSum (historyW cs).items - indSum (cs.flatMap callItems)) % 65536 = 0 := by
  rw [fits16_eq] at h
  refine ⟨historyW_narrow cs h, ?_, ?_, ?_⟩
  · intro n hn
    simp only [narrow] at hn
    split at hn
    · rename_i hw; unfold wrap at hw; omega
    · simp at hn
  · intro n i hi
    simp only [narrow] at hi
    split at hi
    · simp at hi
    · simp only [Option.some.injEq] at hi
      refine ⟨wrap n, hi.symm, ?_, ?_, ?_⟩ <;> (unfold wrap; omega)
  · have he : ∀ l : List (Item ι), indSum (l.map erase) = indSum l := by
      intro l
      induction l with
      | nil => rfl
      | cons x l ih => rw [List.map_cons, indSum_cons, indSum_cons, ih]; cases x <;> rfl
    have h1 := indSum_narrow (history cs).items
    rw [← historyW_narrow cs h, he] at h1
    rwa [C07_net_indentation] at h1

/-- C86. A history without quoting is rendered as with unbounded counters as long as the
indentation of the first items of its stream, added up, stays within 16 bits for each number of
items. This is so even where the counter of a stretch of white space wraps around on the way. -/
theorem C86_renders (cs : List (Call ι)) (hp : PlainCalls cs)
    (h : ∀ i ∈ cs.flatMap callItems, fits16 (indOf i) = true)
    (hl : (levels (history cs).items).all fits16 = true) (L : Lang ι) (cfg : Config) :
    toStringW L cfg (historyW cs).items = toString L cfg (history cs).items := by
  rw [fits16_eq] at h hl
  have hz : ∀ i ∈ (history cs).items, nz i = true := by
    intro i hi
    have := (C01_normal_form cs).2
    cases i with
    | indentation n =>
      simp only [nz, ne_eq, decide_eq_true_eq]
      intro h0
      subst h0
      exact this hi
    | _ => rfl
  have h1 : (totals 0 (history cs).items).all inI16 = true := by
    rw [totals_all 0 _ rfl]
    simpa only [Int.zero_add, levels] using hl
  have := formatCursorW_plain L cfg (history cs).items (historyW cs).items (plain_history hp) hz
    (historyW_narrow cs h) (Fmt.new []) rfl h1
  unfold toStringW toString formatItemsW formatItems
  cases h2 : formatCursorW L cfg (historyW cs).items.length stringWriter false [Frame.default] (historyW cs).items
      (Fmt.new []) <;>
    cases h3 : formatCursor L cfg (history cs).items.length stringWriter false [Frame.default] (history cs).items
      (Fmt.new []) <;> rw [h2, h3] at this <;> simp_all

/- The counter of one stretch goes up to 40000 and back to 5. With overflow checks it panics. -/
example : historyC (ι := Nat) [.append (lit "a"), .stream [.indentation 20000], .stream [.indentation 20000],
      .stream [.indentation (-20000)], .stream [.indentation (-19995)], .append (lit "b")] = none ∧
    historyW (ι := Nat) [.append (lit "a"), .stream [.indentation 20000], .stream [.indentation 20000],
      .stream [.indentation (-20000)], .stream [.indentation (-19995)], .append (lit "b")] =
      ⟨[lit "b", .indentation 5, lit "a"], 0⟩ := by decide

/-- C86. No text is lost: with newlines that are white space, the other characters of the output
of a history without quoting are those of the texts and language items handed over, in order,
whatever wraps around. -/
theorem C86_ink (cs : List (Call ι)) (hp : PlainCalls cs) (L : Lang ι) (cfg : Config)
    (hw : ∀ c ∈ cfg.newline, c.isWhitespace = true) :
    ∃ out, toStringW L cfg (historyW cs).items = some out ∧
      out.filter (fun c => !c.isWhitespace) =
        ((cs.flatMap callItems).flatMap fun i => match i with
          | .literal s => s.text
          | .lang _ x => (L.langItem x).flatten
          | _ => []).filter (fun c => !c.isWhitespace) := by
  have hc := (C86_stream cs).2.1
  have hpl : ∀ i ∈ (historyW cs).items, isPlain i = true := by
    intro i hi
    by_cases hi' : isWs i = true
    · cases i <;> first | rfl | simp [isWs] at hi'
    · have hm : erase i ∈ content cs := by
        rw [← hc]
        exact List.mem_map_of_mem (List.mem_filter.2 ⟨hi, by simp [hi']⟩)
      simp only [content, List.mem_map, List.mem_filter] at hm
      obtain ⟨j, ⟨hj, -⟩, hji⟩ := hm
      have := hp j hj
      cases i <;> cases j <;> simp_all [erase, isPlain]
  obtain ⟨g, h1, h2⟩ := formatCursorW_ink L cfg hw (historyW cs).items hpl (Fmt.new [])
  refine ⟨g.out, ?_, ?_⟩
  · unfold toStringW formatItemsW
    rw [h1]
    rfl
  · have h3 := itemText_keep L (historyW cs).items
    rw [hc] at h3
    have h4 := itemText_keep L (cs.flatMap callItems)
    have e : (cs.flatMap callItems).flatMap (itemText L) =
        (cs.flatMap callItems).flatMap fun i => match i with
          | .literal s => s.text
          | .lang _ x => (L.langItem x).flatten
          | _ => [] := by
      congr 1
    rw [← e, h4]
    rw [h3] at h2
    exact h2

theorem indents (n : Nat) :
    historyW (ι := ι) (.append (lit "a") :: List.replicate n .indent) =
      ⟨if wrap n = 0 then [lit "a"] else [.indentation (wrap n), lit "a"], 0⟩ := by
  induction n with
  | zero => rfl
  | succ n ih =>
    unfold historyW at ih ⊢
    rw [List.replicate_succ', ← List.cons_append, List.foldl_append, ih]
    simp only [List.foldl_cons, List.foldl_nil, Call.runW, indentationW]
    have hw : wrap ((n + 1 : Nat) : Int) = addWrap 1 (wrap n) := by unfold addWrap wrap; omega
    rw [hw]
    generalize wrap (n : Int) = m
    by_cases hn : m = 0
    · subst hn; rfl
    · rw [if_neg hn]
      generalize hk : addWrap 1 m = k
      have h1 : indentationRevW 1 [Item.indentation m, lit "a"] =
          if k ≠ 0 then [Item.indentation k, lit (ι := ι) "a"] else [lit "a"] := by
        rw [← hk]; rfl
      simp only [h1]
      by_cases h2 : k = 0
      · rw [if_pos h2, if_neg (by simpa using h2)]
      · rw [if_neg h2, if_pos h2]

/-- C86, the negative part: beyond the range the layout is another one. With unbounded counters `n`
indents between two texts break the line and move the second text by `n` steps. After 32768 of
them the text stands at the left margin, and after 65536 it is not even on a line of its own. -/
theorem C86_wraps_partial :
    (∀ n : Nat, n > 0 → toString plain cfg2
        (history (.append (lit "a") :: List.replicate n .indent ++ [.append (lit "b")])).items =
      some (['a', '\n'] ++ List.replicate (n * 2) ' ' ++ ['b'])) ∧
    toStringW plain cfg2
        (historyW (.append (lit "a") :: List.replicate 32768 .indent ++ [.append (lit "b")])).items =
      some ['a', '\n', 'b'] ∧
    toStringW plain cfg2
        (historyW (.append (lit "a") :: List.replicate 65536 .indent ++ [.append (lit "b")])).items =
      some ['a', 'b'] := by
  refine ⟨?_, ?_, ?_⟩
  · intro n hn
    have h := C06_gap plain cfg2 [] (fun _ h => by simp at h) (.static ['a']) (.static ['b']) (by decide) (by decide)
      (List.replicate n .indent)
    have h0 : toString plain cfg2 (history ([] ++ [.append (.literal (.static ['a']))])).items = some ['a'] := by decide
    have e1 : net (List.replicate n .indent) = n := by
      simp [net, List.count_replicate]
    have e2 : sinceInd (List.replicate n .indent) = [] := by
      cases n with
      | zero => rfl
      | succ n =>
        rw [sinceInd, List.reverse_replicate, List.replicate_succ]
        rfl
    have e3 : gapBreaks (List.replicate n .indent) = 1 := by
      simp only [gapBreaks, e1, e2]
      simp
      omega
    have e4 : gapSpaces (List.replicate n .indent) = 0 := by
      simp [gapSpaces, List.getLast?_replicate]
    rw [h0] at h
    simp only [List.nil_append, List.map_replicate] at h
    refine h.trans ?_
    simp [gapText, e1, e3, e4, marginText, cfg2, indSum]
    rfl
  · have := indents (ι := Str) 32768
    unfold historyW at this ⊢
    rw [List.foldl_append, this]
    rfl
  · have := indents (ι := Str) 65536
    unfold historyW at this ⊢
    rw [List.foldl_append, this]
    rfl

end Genco.Props
