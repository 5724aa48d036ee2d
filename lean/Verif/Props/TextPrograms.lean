import Verif.Props.Programs
import Verif.Props.Text
import Verif.Props.Advice
import Verif.Props.MacroParse

/-!
# C114: programs of source texts

The code that a macro makes of plain source text is a piece of code as C111 needs it, if its last line is on the level of
its first.
-/

set_option autoImplicit false

namespace Genco.Props

open Genco Macro Spec Spec.Text Spec.MacroFile Tokens Proofs.TextFile

variable {ι Env E : Type}

/-! ## Levels of the last line -/

/-- The level of the last line that is not blank. `past` are the columns of the lines above, nearest first. -/
def endLevel : List Nat → List Str → Nat
  | [], [] => 0
  | c :: past, [] => depth c past
  | past, l :: ls => if blank l then endLevel past ls else endLevel (columnOf l :: past) ls

/-- The same for lines of tokens. -/
def srcLevel : List Nat → List SrcLine → Nat
  | [], [] => 0
  | c :: past, [] => depth c past
  | past, l :: ls => srcLevel (l.column :: past) ls

theorem srcs_level (ls : List Str) (h : ∀ l ∈ ls, '\n' ∉ l) : ∀ (a : Nat) (past : List Nat),
    srcLevel past (srcs a ls) = endLevel past ls := by
  induction ls with
  | nil => intro a past; cases past <;> rfl
  | cons l ls ih =>
    intro a past
    have ih' := ih (fun m hm => h m (by simp [hm]))
    rcases scan_line l (h l (by simp)) with ⟨hb, hs⟩ | ⟨hb, s, r, hs, ht, hi, hj⟩
    · simp only [srcs, hs, ih']
      cases past <;> simp [endLevel, hb]
    · simp only [srcs, hs]
      cases past <;> simp [endLevel, srcLevel, hb, ih']

/-! ## Calls of texts and whitespace -/

/-- The marks end with a character. -/
def EndsChar (ms : List (Mark ι)) : Prop := ∃ m c, ms = m ++ [.char c]

theorem ends_text (a : List (Mark ι)) (s : Str) (hs : s ≠ []) : EndsChar (a ++ s.map Mark.char) := by
  obtain ⟨t, c, rfl⟩ := List.eq_nil_or_concat s |>.resolve_left hs
  exact ⟨a ++ t.map Mark.char, c, by simp⟩

theorem ends_rest (a : List (Mark ι)) (ha : EndsChar a) (r : List (Nat × Str)) (hr : ∀ p ∈ r, p.2 ≠ []) :
    EndsChar (a ++ restMarks r) := by
  rcases List.eq_nil_or_concat r with rfl | ⟨t, p, rfl⟩
  · simpa [restMarks] using ha
  · have := ends_text (a ++ restMarks t ++ (if p.1 = 0 then [] else [wsMark .space])) p.2 (hr p (by simp))
    simpa [restMarks] using this

theorem ends_tail (ls : List SrcLine) (hl : ∀ l ∈ ls, Inked l) : ∀ (a : List (Mark ι)) (p : Nat) (past : List Nat),
    EndsChar a → srcLevel (p :: past) ls = 0 → EndsChar (a ++ tailMarks p past ls) := by
  induction ls with
  | nil =>
    intro a p past ha h
    have h : depth p past = 0 := h
    simpa [tailMarks, h] using ha
  | cons l ls ih =>
    intro a p past ha h
    obtain ⟨h1, h2⟩ := hl l (by simp)
    have e1 := ends_text (a ++ (breakCalls (depth p past) (depth l.column (p :: past)) (decide (0 < l.above))).map wsMark)
      l.first h1
    have := ih (fun x hx => hl x (by simp [hx])) _ l.column (p :: past) (ends_rest _ e1 l.rest h2) h
    simpa [tailMarks] using this

theorem ends_behind {a b : List (Mark ι)} (h : EndsChar (a ++ b)) (hb : b ≠ []) : EndsChar b := by
  obtain ⟨m, c, e⟩ := h
  obtain ⟨t, x, rfl⟩ := List.eq_nil_or_concat b |>.resolve_left hb
  rw [List.concat_eq_append, ← List.append_assoc] at e
  have := List.append_inj_right' e rfl
  simp only [List.cons.injEq, and_true] at this
  exact ⟨t, c, by rw [List.concat_eq_append, this]⟩

/-- A text that is not empty, or a call of whitespace. -/
def Textual (c : Call ι) : Prop := (∃ s, s ≠ [] ∧ c = .append (.literal (.static s))) ∨ ∃ w : WsCall, c = w.call

theorem textual_marks (cs : List (Call ι)) (hn : ∀ c ∈ cs, ¬ EmptyCall c)
    (hm : ∀ m ∈ MacroFile.marks cs, (∃ x, m = .char x) ∨ ∃ w, m = wsMark w) : ∀ c ∈ cs, Textual c := by
  intro c hc
  have gen : markOf c = [.call c] → Textual c := by
    intro e
    rcases hm (.call c) (List.mem_flatMap.2 ⟨c, hc, by rw [e]; simp⟩) with ⟨x, h⟩ | ⟨w, h⟩
    · cases h
    · exact .inr ⟨w, by simpa [wsMark] using h⟩
  cases c with
  | append i =>
    cases i with
    | literal l =>
      cases l with
      | «static» s =>
        refine .inl ⟨s, ?_, rfl⟩
        rintro rfl
        exact hn _ hc rfl
      | _ => exact gen rfl
    | _ => exact gen rfl
  | _ => exact gen rfl

theorem text_own (L : Lang ι) (s : Str) (hs : s ≠ []) : Own L 0 [.append (.literal (.static s))] := by
  refine line_own _ [] s rfl hs rfl rfl hs ?_
  show ∀ A ∈ ([.literal (.static s)] : List (Item ι)).inits, _
  simp [height, markStep, indOf]

theorem net_snoc (w : List WsCall) (x : WsCall) : net (w ++ [x]) = net w + indSum (callItems (ι := ι) x.call) := by
  cases x <;> simp [net, WsCall.call, callItems, indSum, indOf] <;> omega

theorem textual_ne {c : Call ι} (h : Textual c) : markOf c ≠ [] := by
  rcases h with ⟨s, hs, rfl⟩ | ⟨w, rfl⟩
  · simpa [markOf] using hs
  · cases w <;> simp [markOf, WsCall.call]

theorem marks_ne {cs : List (Call ι)} (h : ∀ c ∈ cs, Textual c) (hc : cs ≠ []) : MacroFile.marks cs ≠ [] := by
  cases cs with
  | nil => exact absurd rfl hc
  | cons c cs =>
    intro e
    exact textual_ne (h c (by simp)) (List.append_eq_nil_iff.1 e).1

/-- Texts and whitespace behind a piece of code, if they end with text, make a piece of code. -/
theorem own_calls {L : Lang ι} {e : Int} (cs : List (Call ι)) : ∀ (a : Int) (ds : List (Call ι)) (w : List WsCall),
    Own L a ds → (∀ c ∈ cs, Textual c) → Climb (a + net w) e (MacroFile.marks cs) → EndsChar (MacroFile.marks cs) →
    Own L e (ds ++ w.map WsCall.call ++ cs) := by
  induction cs with
  | nil =>
    rintro a ds w - - - ⟨m, c, h⟩
    simp [MacroFile.marks] at h
  | cons c cs ih =>
    intro a ds w hd ht hc he
    have ht' := fun x hx => ht x (List.mem_cons_of_mem c hx)
    rw [show MacroFile.marks (c :: cs) = markOf c ++ MacroFile.marks cs from rfl] at hc he
    obtain ⟨h0, h1⟩ := (climb_mark _ _ _ _).1 hc
    rcases ht c (by simp) with ⟨s, hs, rfl⟩ | ⟨x, rfl⟩
    · have hj := own_join hd (text_own L s hs) w h0
      have z : indSum (callItems (ι := ι) (.append (.literal (.static s)))) = 0 := rfl
      rw [z] at h1
      by_cases hn : cs = []
      · subst hn
        have : a + net w + 0 = e := h1.1
        rw [this] at hj
        exact hj
      · have := ih _ _ [] hj ht' (by simpa [net] using h1) (ends_behind he (marks_ne ht' hn))
        simpa using this
    · have hne : MacroFile.marks cs ≠ [] := by
        intro h
        rw [h, List.append_nil] at he
        obtain ⟨m, k, he⟩ := he
        have hx : markOf (ι := ι) x.call = [.call x.call] := by cases x <;> rfl
        rw [hx] at he
        have := congrArg List.getLast? he
        simp at this
      have := ih a ds (w ++ [x]) hd ht' (by rw [net_snoc (ι := ι), ← Int.add_assoc]; exact h1) (ends_behind he hne)
      simpa using this

/-! ## Macros -/

theorem rest_plain (r : List (Nat × Str)) : ∀ m ∈ restMarks (ι := ι) r, (∃ x, m = .char x) ∨ ∃ w, m = wsMark w := by
  intro m hm
  obtain ⟨q, -, hq⟩ := List.mem_flatMap.1 hm
  rcases List.mem_append.1 hq with hq | hq
  · split at hq
    · cases hq
    · exact .inr ⟨.space, by simpa using hq⟩
  · obtain ⟨x, -, rfl⟩ := List.mem_map.1 hq
    exact .inl ⟨x, rfl⟩

theorem tail_plain (ls : List SrcLine) : ∀ (p : Nat) (past : List Nat), ∀ m ∈ tailMarks (ι := ι) p past ls,
    (∃ x, m = .char x) ∨ ∃ w, m = wsMark w := by
  induction ls with
  | nil =>
    intro p past m hm
    obtain ⟨w, -, rfl⟩ := List.mem_map.1 hm
    exact .inr ⟨w, rfl⟩
  | cons l ls ih =>
    intro p past m hm
    simp only [tailMarks, List.mem_append] at hm
    rcases hm with (hm | hm) | hm | hm
    · obtain ⟨w, -, rfl⟩ := List.mem_map.1 hm
      exact .inr ⟨w, rfl⟩
    · obtain ⟨x, -, rfl⟩ := List.mem_map.1 hm
      exact .inl ⟨x, rfl⟩
    · exact rest_plain _ m hm
    · exact ih _ _ m hm

/-- C114. What a macro makes of lines of tokens, the last of them on the level of the first, is a part of a program, and
its lines are those of C60. -/
theorem C114_leaf (H : Host ι E Env) (L : Lang ι) (cfg : Config) (line : Nat) (ls : List SrcLine) (h0 : ls ≠ [])
    (hi : ∀ l ∈ ls, Inked l) (ho : Offside [] ls) (he : srcLevel [] ls = 0) :
    ∃ ss, Macro.quote (ι := ι) (E := E) none (tokens (placeLines line ls)) = .ok (false, ss) ∧
      ∀ ρ, (Program.leaf (runBlock H ρ ss) (outLines cfg [] ls)).Ok L cfg := by
  obtain ⟨ss, hq, hv⟩ := C60_lines H L cfg line ls h0 hi ho
  refine ⟨ss, hq, fun ρ => ⟨?_, hv ρ⟩⟩
  obtain ⟨l, ls, rfl⟩ := List.exists_cons_of_ne_nil h0
  obtain ⟨-, hm⟩ := (block_tokens _ _).1 (block_lines (ι := ι) l ls line ho)
  have hr := ((tokens_accepted H _).2 _ _ hq).2 ρ
  have hb := (balanced_iff _).1 (C52_balanced (ι := ι) (E := E) plainHost
    (fun _ _ => ⟨rfl, fun p hp => by rw [List.prefix_nil.1 hp]; simp [indSum]⟩)
    (fun _ _ => ⟨rfl, fun p hp => by rw [List.prefix_nil.1 hp]; simp [indSum]⟩) none _ _ _ hq ())
  rw [((tokens_accepted plainHost _).2 _ _ hq).2 (), ← hr] at hb
  rw [← hm] at hr
  obtain ⟨h1, -⟩ := run_simple H ss (simple_quote _ _ _ _ hq) ρ
  obtain ⟨hf, hrest⟩ := hi l (by simp)
  have hend : EndsChar (MacroFile.marks (runBlock H ρ ss)) := by
    rw [hr, ← List.append_assoc]
    exact ends_tail ls (fun x hx => hi x (by simp [hx])) _ l.column [] (ends_rest _ (ends_text [] l.first hf) _ hrest) he
  have htext : ∀ c ∈ runBlock H ρ ss, Textual c := by
    refine textual_marks _ h1 fun m hm' => ?_
    rw [hr] at hm'
    simp only [List.mem_append] at hm'
    rcases hm' with hm' | hm' | hm'
    · obtain ⟨x, -, rfl⟩ := List.mem_map.1 hm'
      exact .inl ⟨x, rfl⟩
    · exact rest_plain _ m hm'
    · exact tail_plain ls _ _ m hm'
  generalize runBlock H ρ ss = cs at *
  cases cs with
  | nil => obtain ⟨m, c, h⟩ := hend; simp [MacroFile.marks] at h
  | cons c cs =>
    rcases htext c (by simp) with ⟨s, hs, rfl⟩ | ⟨x, rfl⟩
    · rw [show MacroFile.marks (.append (.literal (.static s)) :: cs) =
        markOf (.append (.literal (.static s))) ++ MacroFile.marks cs from rfl] at hb hend
      have ht' : ∀ c ∈ cs, Textual c := fun c hc => htext c (List.mem_cons_of_mem _ hc)
      by_cases hn : cs = []
      · subst hn
        exact text_own L s hs
      · have := own_calls cs 0 _ [] (text_own L s hs) ht' (by simpa [net, callItems, indSum, indOf] using ((climb_mark _ _ _ _).1 hb).2)
          (ends_behind hend (marks_ne ht' hn))
        simpa using this
    · exfalso
      obtain ⟨k, t, hk⟩ := List.exists_cons_of_ne_nil hf
      have hx : markOf (ι := ι) x.call = [.call x.call] := by cases x <;> rfl
      rw [show MacroFile.marks (x.call :: cs) = markOf x.call ++ MacroFile.marks cs from rfl, hx, hk] at hr
      simp at hr

/-! ## Text -/

/-- C114. So for plain source text, from its characters on. -/
theorem C114_text (S : Syn) (H : Host ι (List TT) Env) (L : Lang ι) (cfg : Config) (line k off : Nat)
    (ls : List Str) (hl : ∀ l ∈ ls, '\n' ∉ l) (hp : Plain (Macro.textOf ls)) (hn : Text.nested [] (Macro.textOf ls) = true)
    (ho : offside [] (pad k ls) = true) (hi : ∃ l ∈ ls, blank l = false) (he : endLevel [] (pad k ls) = 0) :
    ∃ ts ns ss, lex .nightly ⟨line, k, off⟩ (Macro.textOf ls) = some ts ∧ Parses S ts ns ∧
      Macro.quote (ι := ι) none ns = .ok (false, ss) ∧
      ∀ ρ, (Program.leaf (runBlock H ρ ss) (rendered cfg [] false (pad k ls))).Ok L cfg := by
  obtain ⟨ts, h1, h2, h3⟩ := (lex_plain .nightly ⟨line, k, off⟩ hp).1 hn
  cases ls with
  | nil => simp at hi
  | cons l ls =>
    rw [toks_lines ls l line k off line 0 rfl (fun m hm => ⟨all_textOf (hole_of_plain hp.chars) m hm, hl m hm⟩)] at h2
    have hl' : ∀ m ∈ pad k (l :: ls), '\n' ∉ m := by
      intro m hm
      rcases List.mem_cons.1 hm with rfl | hm
      · simp [hl l (by simp)]
      · exact hl m (by simp [hm])
    obtain ⟨k1, k2, k3, k4⟩ := srcs_lines cfg (pad k (l :: ls)) hl' 0 []
    have hne : srcs 0 (pad k (l :: ls)) ≠ [] := by
      rw [Ne, k4]
      intro hall
      obtain ⟨m, hm, hb⟩ := hi
      rcases List.mem_cons.1 hm with rfl | hm
      · have := hall (List.replicate k ' ' ++ m) (by simp [pad])
        simp only [blank, List.all_append, Bool.and_eq_true] at this hb
        rw [this.2] at hb
        cases hb
      · rw [hall m (by simp [pad, hm])] at hb
        cases hb
    have hm := means_doubled S (fun c => c.start) ts
    rw [doubled_plain _ ts h3] at hm
    obtain ⟨ss, q1, q2⟩ := C114_leaf H L cfg line _ hne k3 (k2.2 ho) (by rw [srcs_level _ hl']; exact he)
    refine ⟨ts, wrapped ts, ss, h1, (parses_iff S ts _).2 hm, ?_, fun ρ => ?_⟩
    · rw [← q1]
      unfold Macro.quote
      rw [nodes_wrapped, h2]
      rfl
    · have := q2 ρ
      rw [k1] at this
      exact this

/-- Source texts with whitespace between them: the text of a macro and where it begins, two of them with whitespace calls
between them, and a block. -/
inductive Sources where
  | text (line k off : Nat) (ls : List Str)
  | both (a : Sources) (w : List WsCall) (b : Sources)
  | block (a b c : Sources)

/-- The texts are plain, keep to the off-side rule, have brackets that match, and end on the level they begin on. -/
def Sources.Ok : Sources → Prop
  | .text _ k _ ls => (∀ l ∈ ls, '\n' ∉ l) ∧ Plain (Macro.textOf ls) ∧ Text.nested [] (Macro.textOf ls) = true ∧
      offside [] (pad k ls) = true ∧ (∃ l ∈ ls, blank l = false) ∧ endLevel [] (pad k ls) = 0
  | .both a w b => a.Ok ∧ b.Ok ∧ net w = 0 ∧ 0 < gapBreaks w ∧ gapSpaces w = 0
  | .block a b c => a.Ok ∧ b.Ok ∧ c.Ok

/-- The lines as they are in the sources, tidied up. -/
def Sources.lines (cfg : Config) : Sources → List Str
  | .text _ k _ ls => rendered cfg [] false (pad k ls)
  | .both a w b => a.lines cfg ++ List.replicate (gapBreaks w - 1) [] ++ b.lines cfg
  | .block a b c => a.lines cfg ++ (b.lines cfg).map (movedIn cfg 1) ++ c.lines cfg

/-- The calls are made by the macros for the texts, and the whitespace calls between them. -/
def Sources.Makes (S : Syn) (H : Host ι (List TT) Env) (ρ : Env) : Sources → List (Call ι) → Prop
  | .text line k off ls, cs => ∃ ts ns r ss, lex .nightly ⟨line, k, off⟩ (Macro.textOf ls) = some ts ∧ Parses S ts ns ∧
      Macro.quote none ns = .ok (r, ss) ∧ cs = runBlock H ρ ss
  | .both a w b, cs => ∃ x y, a.Makes S H ρ x ∧ b.Makes S H ρ y ∧ cs = x ++ w.map WsCall.call ++ y
  | .block a b c, cs => ∃ x y z, a.Makes S H ρ x ∧ b.Makes S H ρ y ∧ c.Makes S H ρ z ∧
      cs = x ++ [.indent] ++ y ++ [.unindent] ++ z

/-- C114. Macros of plain text can be put together to programs of any depth: all of them are accepted. -/
theorem C114_accepted (S : Syn) (H : Host ι (List TT) Env) (ρ : Env) (L : Lang ι) (s : Sources) (hs : s.Ok) :
    ∃ cs, s.Makes S H ρ cs := by
  induction s with
  | text line k off ls =>
    obtain ⟨h1, h2, h3, h4, h5, h6⟩ := hs
    obtain ⟨ts, ns, ss, a, b, c, -⟩ := C114_text S H L ⟨.tab, []⟩ line k off ls h1 h2 h3 h4 h5 h6
    exact ⟨_, ts, ns, _, ss, a, b, c, rfl⟩
  | both a w b iha ihb =>
    obtain ⟨x, hx⟩ := iha hs.1
    obtain ⟨y, hy⟩ := ihb hs.2.1
    exact ⟨_, x, y, hx, hy, rfl⟩
  | block a b c iha ihb ihc =>
    obtain ⟨x, hx⟩ := iha hs.1
    obtain ⟨y, hy⟩ := ihb hs.2.1
    obtain ⟨z, hz⟩ := ihc hs.2.2
    exact ⟨_, x, y, z, hx, hy, hz, rfl⟩

/-- C114. What they make is a program, so C112 and C113 are about files of them, too. -/
theorem C114_program (S : Syn) (H : Host ι (List TT) Env) (ρ : Env) (L : Lang ι) (cfg : Config) (s : Sources)
    (hs : s.Ok) : ∀ cs, s.Makes S H ρ cs → ∃ p : Program ι, p.calls = cs ∧ p.lines cfg = s.lines cfg ∧ p.Ok L cfg := by
  induction s with
  | text line k off ls =>
    rintro cs ⟨ts, ns, r, ss, a, b, c, rfl⟩
    obtain ⟨h1, h2, h3, h4, h5, h6⟩ := hs
    obtain ⟨ts', ns', ss', a', b', c', d'⟩ := C114_text S H L cfg line k off ls h1 h2 h3 h4 h5 h6
    rw [a] at a'
    cases a'
    have := C67_unique S ts ns ns' ((parses_iff ..).1 b) ((parses_iff ..).1 b')
    subst this
    rw [c] at c'
    cases c'
    exact ⟨.leaf (runBlock H ρ ss) (rendered cfg [] false (pad k ls)), rfl, rfl, d' ρ⟩
  | both a w b iha ihb =>
    rintro cs ⟨x, y, hx, hy, rfl⟩
    obtain ⟨p, p1, p2, p3⟩ := iha hs.1 x hx
    obtain ⟨q, q1, q2, q3⟩ := ihb hs.2.1 y hy
    exact ⟨.both p w q, by simp [Program.calls, p1, q1], by simp [Program.lines, Sources.lines, p2, q2],
      p3, q3, hs.2.2⟩
  | block a b c iha ihb ihc =>
    rintro cs ⟨x, y, z, hx, hy, hz, rfl⟩
    obtain ⟨p, p1, p2, p3⟩ := iha hs.1 x hx
    obtain ⟨q, q1, q2, q3⟩ := ihb hs.2.1 y hy
    obtain ⟨r, r1, r2, r3⟩ := ihc hs.2.2 z hz
    exact ⟨.block p q r, by simp [Program.calls, p1, q1, r1], by simp [Program.lines, Sources.lines, p2, q2, r2],
      p3, q3, r3⟩

/-- C114. What they make is rendered as the lines of the texts, those in a block one level further in. -/
theorem C114_lines (S : Syn) (H : Host ι (List TT) Env) (ρ : Env) (L : Lang ι) (cfg : Config) (s : Sources)
    (hs : s.Ok) (cs : List (Call ι)) (hm : s.Makes S H ρ cs) :
    toVec L cfg (history cs).items = some (s.lines cfg) := by
  obtain ⟨p, rfl, p2, p3⟩ := C114_program S H ρ L cfg s hs cs hm
  rw [← p2]
  exact C111_program L cfg p p3

/-! ## Examples -/

/-- A function between two lines, and one more line. The function is in the middle of a line, at column 8. -/
def sourcesSample : Sources :=
  .both (.block (.text 1 0 0 ["mod a".toList])
      (.text 7 8 90 ["fn f() {".toList, "            x;".toList, [], "            y(1,  2);".toList, "        }".toList])
      (.text 20 4 300 ["end".toList]))
    [.line] (.text 30 0 400 ["".toList, "  g".toList])

theorem sourcesSample_ok : sourcesSample.Ok := by
  refine ⟨⟨?_, ?_, ?_⟩, ?_, by decide, by decide, by decide⟩ <;>
    exact ⟨by decide, by decide +kernel, by decide +kernel, by decide +kernel, by decide, by decide⟩

example : sourcesSample.lines ⟨.space 4, ['\n']⟩ =
    ["mod a".toList, "    fn f() {".toList, "        x;".toList, [], "        y(1, 2);".toList, "    }".toList, "end".toList,
      [], "g".toList] := by
  decide +kernel

example (S : Syn) (H : Host Rust.Import (List TT) Unit) : ∃ cs, sourcesSample.Makes S H () cs ∧
    toVec (Rust.lang .direct) ⟨.space 4, ['\n']⟩ (history cs).items = some
      ["mod a".toList, "    fn f() {".toList, "        x;".toList, [], "        y(1, 2);".toList, "    }".toList,
        "end".toList, [], "g".toList] := by
  obtain ⟨cs, h⟩ := C114_accepted S H () (Rust.lang .direct) sourcesSample sourcesSample_ok
  refine ⟨cs, h, ?_⟩
  rw [C114_lines S H () (Rust.lang .direct) ⟨.space 4, ['\n']⟩ _ sourcesSample_ok cs h]
  decide +kernel

/-- C114. The condition on the last line is needed: in front of a block, the way out of a text that ends further in and
the way into the block are no line break, so the last line of the text and the first line of the block become one. -/
theorem C114_needed : ∃ ss : List (Stmt Rust.Import Unit),
    Macro.quote none (tokens (placeLines 1 [⟨0, 0, "a".toList, []⟩, ⟨0, 2, "b".toList, []⟩])) = .ok (false, ss) ∧
    toVec (Rust.lang .direct) ⟨.space 4, ['\n']⟩ (history (runBlock plainHost () ss)).items =
      some ["a".toList, "    b".toList] ∧
    toVec (Rust.lang .direct) ⟨.space 4, ['\n']⟩
        (history (runBlock plainHost () ss ++ [.indent, .append (lit "c"), .unindent, .append (lit "d")])).items =
      some ["a".toList, "    bc".toList, "d".toList] :=
  ⟨_, rfl, by decide +kernel, by decide +kernel⟩

end Genco.Props
