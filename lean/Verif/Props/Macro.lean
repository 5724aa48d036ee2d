import Verif.Proofs.MacroLines
import Verif.Model.Escape

/-!
# Quoting macros
-/

set_option autoImplicit false

namespace Genco.Props

open Spec Spec.MacroFile Macro

variable {ι E Env : Type}

/-! ## Sample -/

namespace MacroSample

/-- A host where values are texts, there are no variables, and loops run thrice. -/
def host : Host Str Str Nat where
  value n e := [.append (.literal (.box (e ++ List.replicate n '\'')))]
  scope _ e := [.indent, .append (.literal (.box e)), .unindent]
  iter _ _ _ := [0, 1, 2]
  test n _ := if n == 0 then some (n + 2) else none
  pick n _ _ _ := some n
  bind n _ _ := n + 1

/-- A token on one line. -/
def tok (line column : Nat) (s : String) : Tok := (⟨⟨line, column⟩, ⟨line, column + s.length⟩⟩, s.toList)

def tree (line column : Nat) (s : String) : Node Str := .tree (tok line column s).1 s.toList

def cfg : Config := ⟨.space 4, ['\n']⟩

def lang : Lang Str := baseLang (fun c => [c]) (fun s => [s])

/-- The lines a macro comes to. -/
def out (span : Option Cur) (ns : List (Node Str)) : Option (List Str) :=
  match Macro.quote span ns with
  | .ok (_, ss) => toVec lang cfg (history (runBlock host 0 ss)).items
  | .error _ => none

end MacroSample

open MacroSample

/-! ## Meaning -/

/-- C55. A macro is accepted if and only if the layout of its input is (`quoted`), and then
the generated code does what the nodes say, one after the other: constant text is the same
character by character, calls and values are the same and in the same order. -/
theorem C55_meaning (H : Host ι E Env) (span : Option Cur) (ns : List (Node E)) :
    (quoted H span ns = none → ∃ x, Macro.quote (ι := ι) span ns = .error x) ∧
    ∀ as, quoted H span ns = some as → ∃ ss, Macro.quote span ns = .ok (interpolated ns, ss) ∧
      ∀ ρ, marks (runBlock H ρ ss) = perform ρ as := by
  obtain ⟨h1, h2⟩ := quote_ok H span (nodes_ok H ns)
  refine ⟨h1, fun as ha => ?_⟩
  obtain ⟨ss, hs, he⟩ := h2 as ha
  exact ⟨ss, hs, fun ρ => by rw [← he, perform_evs]⟩

/-- What is known of an accepted macro. -/
theorem accepted (H : Host ι E Env) {span : Option Cur} {ns : List (Node E)} {r : Bool}
    {ss : List (Stmt ι E)} (h : Macro.quote span ns = .ok (r, ss)) :
    r = interpolated ns ∧ ∃ qs as, stepsOf H ns = some qs ∧ block .ws (span.map inner) qs = some as ∧
      ∀ ρ, marks (runBlock H ρ ss) = perform ρ as := by
  obtain ⟨h1, h2⟩ := C55_meaning H span ns
  cases hq : quoted H span ns with
  | none =>
    obtain ⟨x, hx⟩ := h1 hq
    rw [hx] at h; cases h
  | some as =>
    obtain ⟨ss', hs, he⟩ := h2 as hq
    rw [hs] at h
    cases h
    simp only [quoted, Option.bind_eq_some_iff] at hq
    obtain ⟨qs, hq, ha⟩ := hq
    exact ⟨rfl, qs, as, hq, ha, he⟩

/-- C55. Without whitespace the generated code says what the nodes say, in order; where
they are in the source does not matter. -/
theorem C55_content (H : Host ι E Env) (span : Option Cur) (ns : List (Node E)) (r : Bool) (ss : List (Stmt ι E))
    (h : Macro.quote span ns = .ok (r, ss)) (ρ : Env) :
    bare (marks (runBlock H ρ ss)) = (told H ns ρ).2 := by
  obtain ⟨-, qs, as, hq, ha, he⟩ := accepted H h
  rw [he, ← block_told H ns qs _ as hq ha]
  rfl

/-- C55. The constant text of tokens, with the whitespace calls left out, is the text of the
tokens. -/
theorem C55_text (H : Host ι E Env) (span : Option Cur) (ts : List Tok) (r : Bool) (ss : List (Stmt ι E))
    (h : Macro.quote span (tokens ts) = .ok (r, ss)) (ρ : Env) :
    bare (marks (runBlock H ρ ss)) = (ts.flatMap (·.2)).map .char := by
  rw [C55_content H span _ r ss h]
  clear h
  induction ts with
  | nil => rfl
  | cons t ts ih =>
    show t.2.map Mark.char ++ (told H (tokens ts) ρ).2 = _
    rw [ih, List.flatMap_cons, List.map_append]

/-- C55. No empty constant text is appended, if there is no empty string among the nodes and
Rust code appends none. -/
theorem C55_no_empty_partial (H : Host ι E Env) (hv : ∀ ρ e, ∀ c ∈ H.value ρ e, ¬ EmptyCall c)
    (hs : ∀ ρ e, ∀ c ∈ H.scope ρ e, ¬ EmptyCall c) (span : Option Cur) (ns : List (Node E))
    (hn : emptyText ns = false) (r : Bool) (ss : List (Stmt ι E)) (h : Macro.quote span ns = .ok (r, ss))
    (ρ : Env) : ∀ c ∈ runBlock H ρ ss, ¬ EmptyCall c := by
  obtain ⟨e, h1, h2⟩ := ok_bind (x := nodes (startEnc span) ns) (f := Enc.intoOutput) h
  exact full_block H hv hs ns hn span e r ss h1 h2 ρ

/-- C55. An empty string gives empty constant text. -/
theorem C55_no_empty_negative : ∃ ss : List (Stmt Str Str),
    Macro.quote none [.quoted ⟨⟨1, 0⟩, ⟨1, 2⟩⟩ []] = .ok (false, ss) ∧
      ∃ c ∈ runBlock host 0 ss, EmptyCall c :=
  ⟨_, rfl, _, List.mem_cons_of_mem _ (List.mem_cons_self ..), rfl⟩

example : emptyText [tree 1 4 "a", .quoted ⟨⟨1, 6⟩, ⟨1, 9⟩⟩ ['b'], .eval ⟨⟨2, 4⟩, ⟨2, 6⟩⟩ ['x']] = false := by decide

example : out none [tree 1 4 "let", tree 1 8 "x", .eval ⟨⟨1, 9⟩, ⟨1, 11⟩⟩ ['v'],
    .group ⟨⟨1, 12⟩, ⟨3, 5⟩⟩ .brace [tree 2 8 "y", tree 2 9 ";"]] =
    some ["let xv {".toList, "    y;".toList, "}".toList] := by decide +kernel

/-! ## Requirements -/

/-- C58. Support for interpolation is required if and only if some string in the macro has a
part that is evaluated. -/
theorem C58_requirements (H : Host ι E Env) (span : Option Cur) (ns : List (Node E)) (r : Bool)
    (ss : List (Stmt ι E)) (h : Macro.quote span ns = .ok (r, ss)) : r = interpolated ns :=
  (accepted H h).1

example : ∃ ss : List (Stmt Str Str), Macro.quote none [.loop ⟨⟨1, 0⟩, ⟨1, 30⟩⟩ [] [] [.ifThen ⟨⟨1, 9⟩, ⟨1, 29⟩⟩ []
    [.str ⟨⟨1, 12⟩, ⟨1, 28⟩⟩ ⟨⟨1, 18⟩, ⟨1, 28⟩⟩ [.ident ⟨⟨1, 19⟩, ⟨1, 27⟩⟩ ['n']]]]] = .ok (true, ss) := ⟨_, rfl⟩

example : ∃ ss : List (Stmt Str Str), Macro.quote none [.str ⟨⟨1, 12⟩, ⟨1, 28⟩⟩ ⟨⟨1, 18⟩, ⟨1, 28⟩⟩
    [.tt ⟨⟨1, 19⟩, ⟨1, 27⟩⟩ ['n']]] = .ok (false, ss) := ⟨_, rfl⟩

/-! ## Indentation -/

/-- C52. The generated calls indent as often as they unindent and never go below the level
they start with, if the Rust code in the macro does so. -/
theorem C52_balanced (H : Host ι E Env) (hv : ∀ ρ e, Balanced (H.value ρ e)) (hs : ∀ ρ e, Balanced (H.scope ρ e))
    (span : Option Cur) (ns : List (Node E)) (r : Bool) (ss : List (Stmt ι E))
    (h : Macro.quote span ns = .ok (r, ss)) (ρ : Env) : Balanced (runBlock H ρ ss) := by
  obtain ⟨-, qs, as, hq, ha, he⟩ := accepted H h
  rw [balanced_iff, he]
  exact block_level _ qs as (nodes_level H hv hs ns qs hq) ha ρ

example (ρ : Nat) (e : Str) : Balanced (host.value ρ e) :=
  (balanced_iff _).2 ⟨by omega, by show 0 + 0 = 0 ∧ 0 ≤ 0 + 0; omega⟩

example (ρ : Nat) (e : Str) : Balanced (host.scope ρ e) :=
  (balanced_iff _).2 ⟨by omega, by show 0 ≤ 0 + 1; omega, by show 0 ≤ 0 + 1 + 0; omega,
    by show 0 + 1 + 0 + -1 = 0 ∧ 0 ≤ 0 + 1 + 0 + -1; omega⟩

/-! ## Tokens on lines -/

/-- The marks of tokens. -/
theorem tokens_accepted (H : Host ι E Env) (ts : List Tok) :
    (Follow [] ts → ∃ ss, Macro.quote (ι := ι) (E := E) none (tokens ts) = .ok (false, ss)) ∧
    ∀ r ss, Macro.quote (ι := ι) none (tokens ts) = .ok (r, ss) →
      Follow [] ts ∧ ∀ ρ, marks (runBlock H ρ ss) = laterMarks [] ts := by
  have hi : interpolated (E := E) (tokens ts) = false := by
    induction ts with
    | nil => rfl
    | cons t ts ih => exact ih
  obtain ⟨h1, h2⟩ := C55_meaning H none (tokens ts)
  rw [quoted_tokens] at h1 h2
  constructor
  · intro hf
    have hb := (block_tokens (ι := ι) ts _).2 ⟨hf, rfl⟩
    obtain ⟨ss, hs, -⟩ := h2 _ (by rw [show Option.map inner none = none from rfl, hb]; rfl)
    rw [hi] at hs
    exact ⟨ss, hs⟩
  · intro r ss h
    cases hb : block (wsMark (ι := ι)) (Option.map inner none) (tokMarks ts) with
    | none =>
      obtain ⟨x, hx⟩ := h1 (by rw [hb]; rfl)
      rw [hx] at h; cases h
    | some ms =>
      obtain ⟨ss', hs, he⟩ := h2 (ms.map Step.mark) (by rw [hb]; rfl)
      rw [hs] at h
      cases h
      obtain ⟨hf, rfl⟩ := (block_tokens ts ms).1 hb
      exact ⟨hf, fun ρ => by rw [he, perform_marks]⟩

/-- C53. Tokens are accepted if and only if each is on the line of the one before, or on a
later line that is further in than the last line, at its column, at the column of a line
around it, or further out than all lines. -/
theorem C53_accepted (H : Host ι E Env) (ts : List Tok) :
    (∃ r ss, Macro.quote (ι := ι) (E := E) none (tokens ts) = .ok (r, ss)) ↔
      ∀ a t b, ts = a ++ t :: b → Follows t a.reverse := by
  have hf := follow_iff ts []
  simp only [List.append_nil] at hf
  rw [← hf]
  obtain ⟨h1, h2⟩ := tokens_accepted (E := E) H ts
  exact ⟨fun ⟨r, ss, h⟩ => (h2 r ss h).1, fun h => by
    obtain ⟨ss, hs⟩ := h1 h
    exact ⟨false, ss, hs⟩⟩

/-- C53. Every token is at the level of its line by the off-side rule. -/
theorem C53_level (H : Host ι E Env) (a : List Tok) (t : Tok) (b : List Tok) (r : Bool) (ss : List (Stmt ι E))
    (h : Macro.quote none (tokens (a ++ t :: b)) = .ok (r, ss)) (ρ : Env) :
    ∃ X Y, marks (runBlock H ρ ss) = X ++ t.2.map .char ++ Y ∧ textOf X = a.flatMap (·.2) ∧
      textOf Y = b.flatMap (·.2) ∧ indentsOf X = levelOf (t :: a.reverse) := by
  obtain ⟨hf, he⟩ := (tokens_accepted H (a ++ t :: b)).2 r ss h
  obtain ⟨X, e, tx, lv⟩ := laterMarks_split (ι := ι) a t b [] hf
  have hw : Follows t a.reverse := by
    have := (follow_iff (a ++ t :: b) []).1 hf a t b rfl
    rwa [List.append_nil] at this
  rw [List.append_nil] at e lv
  refine ⟨X ++ (gapFor t a.reverse).map wsMark, _, by rw [he, e], ?_, laterMarks_text _ _, ?_⟩
  · rw [textOf_append, textOf_ws, tx, List.append_nil]
  · rw [indentsOf_append]
    have h0 : levelOf [] = 0 := rfl
    rw [h0] at lv
    cases ha : a.reverse with
    | nil =>
      rw [ha, h0] at lv
      have : levelOf [t] = 0 := rfl
      rw [this, show gapFor t [] = [] from rfl]
      simp only [List.map_nil, indentsOf]
      omega
    | cons s r =>
      rw [ha] at lv hw
      have := gapFor_level (ι := ι) t s r hw
      omega

/-- C54. Between two neighbouring tokens there is exactly this whitespace: a space if they are
on one line and not adjacent; a line break with the change of level if they are on different
lines, with a blank line if at least one line lies between; and nothing if the line is further
out than all lines above. -/
theorem C54_between_partial (H : Host ι E Env) (a : List Tok) (s t : Tok) (b : List Tok) (r : Bool)
    (ss : List (Stmt ι E)) (h : Macro.quote none (tokens (a ++ s :: t :: b)) = .ok (r, ss)) (ρ : Env) :
    ∃ X Y, ∃ w : List WsCall, marks (runBlock H ρ ss) =
        X ++ s.2.map .char ++ w.map (fun c => .call c.call) ++ t.2.map .char ++ Y ∧
      textOf X = a.flatMap (·.2) ∧ textOf Y = b.flatMap (·.2) ∧
      (s.1.stop.line = t.1.start.line → w = if s.1.stop.column < t.1.start.column then [.space] else []) ∧
      (s.1.stop.line ≠ t.1.start.line → (∃ c ∈ lineColumns (s :: a.reverse), c ≤ t.1.start.column) →
        w = breakCalls (levelOf (s :: a.reverse)) (levelOf (t :: s :: a.reverse))
          (decide (s.1.stop.line + 1 < t.1.start.line))) ∧
      (s.1.stop.line ≠ t.1.start.line → (∀ c ∈ lineColumns (s :: a.reverse), t.1.start.column < c) → w = []) := by
  obtain ⟨hf, he⟩ := (tokens_accepted H (a ++ s :: t :: b)).2 r ss h
  obtain ⟨X, e, tx, -⟩ := laterMarks_split (ι := ι) a s (t :: b) [] hf
  rw [List.append_nil] at e
  have hw : Follows t (s :: a.reverse) := by
    have := (follow_iff (a ++ s :: t :: b) []).1 hf (a ++ [s]) t b (by simp)
    simpa using this
  obtain ⟨p, past, hc⟩ := lineColumns_cons s a.reverse
  have hw' : s.1.stop.line = t.1.start.line ∨
      s.1.stop.line < t.1.start.line ∧ (Legal t.1.start.column p past ∨ Falls t.1.start.column p past) := by
    unfold Follows at hw
    rw [hc] at hw
    exact hw
  have hg : gapFor t (s :: a.reverse) = if s.1.stop.line = t.1.start.line then
      if s.1.stop.column < t.1.start.column then [.space] else []
    else if Falls t.1.start.column p past then []
    else breakCalls (levelOf (s :: a.reverse)) (levelOf (t :: s :: a.reverse))
      (decide (s.1.stop.line + 1 < t.1.start.line)) := by
    unfold gapFor; rw [hc]
  refine ⟨X ++ (gapFor s a.reverse).map wsMark, laterMarks (t :: s :: a.reverse) b, gapFor t (s :: a.reverse),
    ?_, ?_, laterMarks_text _ _, ?_, ?_, ?_⟩
  · rw [he, e]
    show _ ++ ((gapFor t (s :: a.reverse)).map wsMark ++ t.2.map Mark.char ++ laterMarks (t :: s :: a.reverse) b) = _
    simp [wsMark]
  · rw [textOf_append, textOf_ws, tx, List.append_nil]
  · intro hl
    rw [hg, if_pos hl]
  · intro hl hx
    rw [hg, if_neg hl, if_neg]
    intro hfall
    obtain ⟨c, hm, hle⟩ := hx
    rw [hc] at hm
    rcases hw' with h' | ⟨-, h'⟩
    · exact hl h'
    · have := (falls_iff h').1 hfall c hm
      omega
  · intro hl hx
    rw [hc] at hx
    rcases hw' with h' | ⟨-, h'⟩
    · exact absurd h' hl
    · rw [hg, if_neg hl, if_pos ((falls_iff h').2 hx)]

/-- C54. Tokens on different lines need not be separated: here they become one word. -/
theorem C54_between_negative : out none (tokens [tok 1 8 "foo", tok 2 4 "bar"]) = some ["foobar".toList] := by
  decide +kernel

example : out none (tokens [tok 1 4 "foo", tok 1 8 "bar", tok 2 8 "baz", tok 4 4 "x", tok 4 5 "y"]) =
    some ["foo bar".toList, "    baz".toList, [], "xy".toList] := by decide +kernel

example : out none (tokens [tok 1 4 "a", tok 2 8 "b", tok 3 6 "c"]) = none := by decide +kernel

example : levelOf [tok 4 6 "d", tok 3 8 "c", tok 2 6 "b", tok 1 4 "a"] = 1 := by decide

/-- C53, C54. The macro keeps lines that keep to the off-side rule apart. -/
example : Follows (tok 3 4 "c") [tok 2 8 "b", tok 1 4 "a"] := .inr ⟨by decide, by decide⟩

/-! ## End to end -/

/-- C60. Lines of tokens that keep to the off-side rule are quoted and rendered as they are in
the source, with the indentation of the configuration, a space for any number of spaces and a
blank line for any number of blank lines. -/
theorem C60_lines (H : Host ι E Env) (L : Lang ι) (cfg : Config) (line : Nat) (ls : List SrcLine) (h0 : ls ≠ [])
    (hi : ∀ l ∈ ls, Inked l) (ho : Offside [] ls) :
    ∃ ss, Macro.quote (ι := ι) (E := E) none (tokens (placeLines line ls)) = .ok (false, ss) ∧
      ∀ ρ, toVec L cfg (history (runBlock H ρ ss)).items = some (outLines cfg [] ls) := by
  cases ls with
  | nil => exact absurd rfl h0
  | cons l ls =>
    have hb := block_lines (ι := ι) l ls line ho
    obtain ⟨hf, hm⟩ := (block_tokens _ _).1 hb
    obtain ⟨ss, hs⟩ := (tokens_accepted (E := E) H _).1 hf
    refine ⟨ss, hs, fun ρ => ?_⟩
    obtain ⟨h1, h2⟩ := run_simple H ss (simple_quote _ _ _ _ hs) ρ
    rw [toVec_marks L cfg _ h1 h2, ((tokens_accepted H _).2 _ _ hs).2 ρ, ← hm, vec_lines L.langItem cfg l ls hi]

/-- A block of source. -/
def MacroSample.block : List SrcLine :=
  [⟨0, 4, "fn".toList, [(2, "f".toList), (0, "()".toList), (1, "{".toList)]⟩,
    ⟨3, 6, "x".toList, [(0, ";".toList)]⟩, ⟨0, 4, "}".toList, []⟩]

example : Offside [] MacroSample.block := ⟨.inl (by decide), .inr (.inr (by decide)), trivial⟩

example : ∀ l ∈ MacroSample.block, Inked l := by
  intro l hl
  simp only [MacroSample.block, List.mem_cons, List.not_mem_nil, or_false] at hl
  rcases hl with rfl | rfl | rfl <;> simp [Inked]

example : outLines MacroSample.cfg [] MacroSample.block =
    ["fn f() {".toList, [], "    x;".toList, "}".toList] := by decide +kernel

/-! ## Loops -/

/-- C56. A joined loop runs the body for every element and the separator between them: the
separator after every element but the last, where it sees what the body binds. -/
theorem C56_join (H : Host ι E Env) (cur : Cur) (pat iter : E) (paren : Cur) (sep body : List (Node E))
    (r : Bool) (ss : List (Stmt ι E))
    (h : Macro.quote none [.joined cur pat iter paren sep body] = .ok (r, ss)) :
    ∃ rb b rs s, Macro.quote none body = .ok (rb, b) ∧ Macro.quote (some paren) sep = .ok (rs, s) ∧
      ∀ ρ, runBlock H ρ ss = alternate ((H.iter ρ pat iter).map (fun ρ' => runBlock H ρ' b))
        ((H.iter ρ pat iter).dropLast.map (fun ρ' => runBlock H (leave H ρ' b) s)) := by
  obtain ⟨e0, h0, h⟩ := ok_bind (x := nodes (startEnc none) [.joined cur pat iter paren sep body])
    (f := Enc.intoOutput) h
  obtain ⟨e1, h1, h2⟩ := ok_bind (x := node (startEnc none) (.joined cur pat iter paren sep body))
    (f := fun e => nodes e []) h0
  cases h2
  obtain ⟨e2, h2, h3⟩ := ok_bind h1
  obtain ⟨⟨rs, s⟩, h3, h4⟩ := ok_bind h3
  obtain ⟨e3, h5, h6⟩ := ok_bind h4
  obtain ⟨⟨rb, b⟩, h6, h7⟩ := ok_bind h6
  refine ⟨rb, b, rs, s, ?_, ?_, ?_⟩
  · show (nodes (startEnc none) body).bind _ = _
    rw [h5]; exact h6
  · show (nodes (startEnc (some paren)) sep).bind _ = _
    rw [h2]; exact h3
  · intro ρ
    cases h7
    cases h
    show (runStmt H ρ (.joinIn pat iter s b)).2 ++ [] = _
    rw [List.append_nil, runStmt]
    generalize H.iter ρ pat iter = l
    induction l with
    | nil => rfl
    | cons x l ih =>
      cases l with
      | nil => show runBlock H x b ++ [] ++ [] = _; simp [alternate]
      | cons y l =>
        rw [peekLoop]
        dsimp only at ih ⊢
        rw [ih]
        rfl

/-- C56. Without bindings the separator is put between the bodies. -/
theorem C56_intercalate (sep : List (Call ι)) (bs : List (List (Call ι))) :
    alternate bs (bs.dropLast.map (fun _ => sep)) = sep.intercalate bs := by
  induction bs with
  | nil => rfl
  | cons b bs ih =>
    cases bs with
    | nil => simp [alternate, List.intercalate]
    | cons c bs =>
      show b ++ sep ++ alternate (c :: bs) _ = _
      rw [show (List.map (fun _ => sep) (c :: bs).dropLast) = (c :: bs).dropLast.map (fun _ => sep) from rfl, ih]
      simp [List.intercalate, List.intersperse]

example : out none [.joined ⟨⟨1, 0⟩, ⟨1, 40⟩⟩ [] [] ⟨⟨1, 20⟩, ⟨1, 24⟩⟩ [tree 1 21 ","] [.eval ⟨⟨1, 27⟩, ⟨1, 29⟩⟩ ['x']]] =
    some ["x, x', x''".toList] := by decide +kernel

/-! ## Strings -/

/-- C57. A string is accepted only if opening parenthesis, parts and closing parenthesis follow
each other on one line. -/
theorem C57_unbroken (H : Host ι E Env) (span : Option Cur) (a b : List (Node E)) (cur paren : Cur)
    (ps : List (Part E)) (r : Bool) (ss : List (Stmt ι E))
    (h : Macro.quote span (a ++ .str cur paren ps :: b) = .ok (r, ss)) :
    Unbroken (inner paren).1 (inner paren).2 ps := by
  obtain ⟨-, qs, as, hq, ha, he⟩ := accepted H h
  have key : ∀ (ps : List (Part E)) (stop close : Pos) (as : List (Step ι Env)),
      strActs H stop close ps = some as → Unbroken stop close ps := by
    have hb : ∀ (x y : Pos) (s : Str), between x y = some s → x.line = y.line := by
      intro x y s h
      unfold between at h
      split at h
      · assumption
      · cases h
    intro ps
    induction ps with
    | nil =>
      intro stop close as h
      simp only [strActs, Option.map_eq_some_iff] at h
      obtain ⟨s, hs, -⟩ := h
      exact hb _ _ _ hs
    | cons p ps ih =>
      intro stop close as h
      have h : ((between stop (placeOf p).start).bind fun gap => (partActs H p).bind fun a =>
        (strActs H (placeOf p).stop close ps).bind fun b => some (Step.text gap ++ a ++ b)) = some as := h
      simp only [Option.bind_eq_some_iff] at h
      obtain ⟨gap, hg, x, -, y, hy, -⟩ := h
      exact ⟨hb _ _ _ hg, ih _ _ _ hy⟩
  clear he ha h
  induction a generalizing qs with
  | nil =>
    have hq : ((stepOf H (.str cur paren ps)).bind fun x => (stepsOf H b).bind fun y => some (x ++ y)) = some qs := hq
    simp only [Option.bind_eq_some_iff] at hq
    obtain ⟨x, hx, -⟩ := hq
    have hx : ((strActs H (inner paren).1 (inner paren).2 ps).bind fun as =>
      some [(cur, Step.call (.append (.openQuote (ps.any isEval))) :: as ++ [Step.call (.append .closeQuote)])]) =
        some x := hx
    simp only [Option.bind_eq_some_iff] at hx
    obtain ⟨z, hz, -⟩ := hx
    exact key _ _ _ _ hz
  | cons n a ih =>
    have hq : ((stepOf H n).bind fun x => (stepsOf H (a ++ .str cur paren ps :: b)).bind fun y => some (x ++ y)) =
      some qs := hq
    simp only [Option.bind_eq_some_iff] at hq
    obtain ⟨x, -, y, hy, -⟩ := hq
    exact ih y hy

/-- C57. A string of tokens on one line keeps the text between the parentheses, with all
spaces. -/
theorem C57_exact_partial (H : Host ι E Env) (cur : Cur) (line column last : Nat) (r : List (Nat × Str)) :
    ∃ ss, Macro.quote (ι := ι) none [.str cur
        ⟨⟨line, column⟩, ⟨line, endColumn (column + 1) r + last + 1⟩⟩
        ((placeRest line (column + 1) r).map (fun t => Part.tt (E := E) t.1 t.2))] = .ok (false, ss) ∧
      ∀ ρ, marks (runBlock H ρ ss) = .call (.append (.openQuote false)) ::
        (exactText r ++ List.replicate last ' ').map .char ++ [.call (.append .closeQuote)] := by
  have key : ∀ (r : List (Nat × Str)) (c : Nat), strActs H ⟨line, c⟩ ⟨line, endColumn c r + last⟩
      ((placeRest line c r).map (fun t => Part.tt (E := E) t.1 t.2)) =
      some (Step.text (exactText r ++ List.replicate last ' ')) := by
    intro r
    induction r with
    | nil =>
      intro c
      show (between ⟨line, c⟩ ⟨line, c + last⟩).map Step.text = _
      rw [between, if_pos rfl, Option.map_some]
      show some (Step.text (List.replicate (c + last - c) ' ')) = _
      rw [Nat.add_sub_cancel_left]
      rfl
    | cons p r ih =>
      obtain ⟨n, s⟩ := p
      intro c
      show ((between ⟨line, c⟩ ⟨line, c + n⟩).bind fun gap =>
        (strActs H ⟨line, c + n + s.length⟩ ⟨line, endColumn (c + n + s.length) r + last⟩
          ((placeRest line (c + n + s.length) r).map (fun t => Part.tt (E := E) t.1 t.2))).bind
            fun b => some (Step.text gap ++ Step.text s ++ b)) = _
      rw [ih, between, if_pos rfl]
      show some (Step.text (List.replicate (c + n - c) ' ') ++ Step.text s ++ Step.text _) = _
      rw [Nat.add_sub_cancel_left, show exactText ((n, s) :: r) = List.replicate n ' ' ++ s ++ exactText r from rfl]
      simp [Step.text]
  have hev : ((placeRest line (column + 1) r).map (fun t => Part.tt (E := E) t.1 t.2)).any isEval = false := by
    rw [List.any_map]
    simp [isEval]
  have hip : interpolatedParts ((placeRest line (column + 1) r).map (fun t => Part.tt (E := E) t.1 t.2)) = false := by
    generalize placeRest line (column + 1) r = l
    induction l with
    | nil => rfl
    | cons t l ih => exact ih
  obtain ⟨-, h2⟩ := C55_meaning H none [.str cur
        ⟨⟨line, column⟩, ⟨line, endColumn (column + 1) r + last + 1⟩⟩
        ((placeRest line (column + 1) r).map (fun t => Part.tt (E := E) t.1 t.2))]
  have hq : quoted H none [.str cur ⟨⟨line, column⟩, ⟨line, endColumn (column + 1) r + last + 1⟩⟩
        ((placeRest line (column + 1) r).map (fun t => Part.tt (E := E) t.1 t.2))] =
      some ((Step.call (.append (.openQuote false)) :: Step.text (exactText r ++ List.replicate last ' ') ++
        [Step.call (.append .closeQuote)]) ++ []) := by
    show ((((strActs H ⟨line, column + 1⟩ ⟨line, endColumn (column + 1) r + last⟩ _).bind fun as => some
      [(cur, Step.call (.append (.openQuote _)) :: as ++ [Step.call (.append .closeQuote)])]).bind fun a =>
        (some []).bind fun b => some (a ++ b)).bind (block .ws none)) = _
    rw [key, hev]
    rfl
  obtain ⟨ss, hs, he⟩ := h2 _ hq
  refine ⟨ss, ?_, fun ρ => ?_⟩
  · rw [hs]
    show Except.ok ((_ || _) || false, ss) = _
    rw [hev, hip]
    rfl
  · rw [he, List.append_nil, perform_append]
    show (_ :: perform ρ (Step.text _)) ++ _ = _
    have := perform_chars (ι := ι) ρ (exactText r ++ List.replicate last ' ') []
    rw [List.append_nil] at this
    rw [this, perform, List.append_nil]
    rfl

example : out none [.str ⟨⟨1, 0⟩, ⟨1, 19⟩⟩ ⟨⟨1, 6⟩, ⟨1, 19⟩⟩ ((placeRest 1 7 [(1, "a".toList), (3, "b".toList),
    (0, ",".toList)]).map (fun t => Part.tt t.1 t.2))] = some ["\" a   b,    \"".toList] := by decide +kernel

/-- C57. A line break within `$(…)` in a string is accepted. -/
theorem C57_break_negative : ∃ ss : List (Stmt Str Str),
    Macro.quote none [.str ⟨⟨1, 0⟩, ⟨2, 6⟩⟩ ⟨⟨1, 6⟩, ⟨2, 6⟩⟩
      [.stream ⟨⟨1, 7⟩, ⟨2, 5⟩⟩ ⟨⟨2, 1⟩, ⟨2, 4⟩⟩ [.tree ⟨⟨2, 1⟩, ⟨2, 4⟩⟩ "abc".toList]]] = .ok (true, ss) := ⟨_, rfl⟩

/-- C57. Two lines within `$(…)` in a string make the macro panic: what is taken for the place
of the content is the place of its first token. -/
theorem C57_panic_negative : Macro.quote (ι := Str) (E := Str) none [.str ⟨⟨1, 0⟩, ⟨2, 4⟩⟩ ⟨⟨1, 6⟩, ⟨2, 4⟩⟩
    [.stream ⟨⟨1, 7⟩, ⟨2, 3⟩⟩ ⟨⟨1, 9⟩, ⟨1, 10⟩⟩ [.tree ⟨⟨1, 9⟩, ⟨1, 10⟩⟩ ['a'], .tree ⟨⟨2, 1⟩, ⟨2, 2⟩⟩ ['b']]]] =
    .error .panic := rfl

end Genco.Props
