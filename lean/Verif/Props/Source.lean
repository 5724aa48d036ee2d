import Verif.Proofs.SourceFile
import Verif.Props.Template
import Verif.Props.Text

/-!
# C78: source text with interpolations is its own text with the names replaced
-/

set_option autoImplicit false

namespace Genco.Props

open Genco Macro Spec Spec.Text Spec.MacroFile Spec.Template Proofs.TextFile

variable {ι Env : Type}

/-- The value of a name is a block of code, which does not depend on where the name is. -/
structure Given (S : Syn) (H : Host ι (List TT) Env) (ρ : Env) (L : Lang ι) (cfg : Config) (n : Str) (vs : List Str) :
    Prop where
  free : S.keyword n = false
  value : ∃ cs, (∀ cur, H.value ρ [.ident cur n] = cs) ∧ BlockOf L cfg cs vs

/-- The calls of holes. -/
def callsOf (H : Host ι (List TT) Env) (ρ : Env) (n : Cur → Node (List TT)) : List (Call ι) :=
  match n ⟨⟨0, 0⟩, ⟨0, 0⟩⟩ with
  | .eval _ e => H.value ρ e
  | _ => [.append (.literal (.static ['$']))]

theorem lines_ne {L : Lang ι} {cfg : Config} {cs : List (Call ι)} {vs : List Str} (h : BlockOf L cfg cs vs) : vs ≠ [] := by
  have := h.lines
  unfold toVec okOf at this
  split at this
  · cases this
    simp [VecState.intoVec]
  · cases this

/-- Text that is not empty is a slot, and so are names and dollars. -/
theorem slots_in {S : Syn} {H : Host ι (List TT) Env} {ρ : Env} {L : Lang ι} {cfg : Config} {v : Str → List Str}
    {P : Str → Prop} (hP : ∀ n, P n → Given S H ρ L cfg n (v n)) {ws : List (Nat × Str)} (h : Words P ws) :
    ∀ p ∈ slots ws, SlotIn H ρ L cfg (callsOf H ρ) (linesOf v) p.2 := by
  induction h with
  | nil => intro p hp; cases hp
  | @plain g s r h1 h2 h3 ih =>
    rw [slots_plain h1]
    intro p hp
    rcases List.mem_cons.1 hp with rfl | hp
    · exact h2
    · exact ih p hp
  | @name g n r h1 h2 h3 h4 h5 ih =>
    rw [slots, if_pos rfl, slotOf, if_neg h2.ne]
    intro p hp
    rcases List.mem_cons.1 hp with rfl | hp
    · obtain ⟨cs, k1, k2⟩ := (hP n h1).value
      have e : callsOf H ρ (nameHole n) = cs := k1 _
      show Hole H ρ L cfg (nameHole n) (callsOf H ρ (nameHole n)) (v n)
      rw [e]
      refine ⟨k2, fun _ => rfl, fun _ => rfl, fun cur => ⟨false, [.value _], rfl, ?_, rfl⟩⟩
      simp [runBlock, runStmt, k1]
    · exact ih p hp
  | @escape g r h1 ih =>
    intro p hp
    rcases List.mem_cons.1 hp with rfl | hp
    · show Hole H ρ L cfg dollarHole [.append (.literal (.static ['$']))] [['$']]
      exact ⟨C76_text L cfg (.static ['$']) (by decide), fun _ => rfl, fun _ => rfl,
        fun cur => ⟨false, [.call (.append (.literal (.static ['$'])))], rfl, by simp [runBlock, runStmt], rfl⟩⟩
    · exact ih p hp

/-- The imports of the value of a name. -/
def importsOf (H : Host ι (List TT) Env) (ρ : Env) (n : Str) : List ι := inserted (callsOf H ρ (nameHole n))

/-- From tokens to what is rendered and imported. -/
theorem render_holes (S : Syn) (H : Host ι (List TT) Env) (hv : ∀ ρ e, ∀ c ∈ H.value ρ e, ¬ EmptyCall c)
    (hs : ∀ ρ e, ∀ c ∈ H.scope ρ e, ¬ EmptyCall c) (ρ : Env) (L : Lang ι) (esc : Char → Str)
    (hQ : ∀ s, L.writeQuoted s = s.map esc) (cfg : Config) (v : Str → List Str) {P : Str → Prop}
    (hP : ∀ n, P n → Given S H ρ L cfg n (v n)) {ts : List TT} {base : Nat} {sl : List SrcLine}
    (hl : leaves ts = true) (hsp : spelled ts = tokens (placeLines base sl)) (h0 : sl ≠ [])
    (hw : ∀ l ∈ sl, Words P ((l.column, l.first) :: l.rest) ∧ ∃ c r, l.first = c :: r ∧ indentChar c = false)
    (ho : Offside [] sl) :
    ∃ ns r ss, Parses S ts ns ∧ Macro.quote (ι := ι) none ns = .ok (r, ss) ∧
      toVec L cfg (history (runBlock H ρ ss)).items = some ((outLines cfg [] sl).flatMap (fill v)) ∧
      (lastLevel [] (sl.map rowOf) = 0 → BlockOf L cfg (runBlock H ρ ss) ((outLines cfg [] sl).flatMap (fill v))) ∧
      inserted (runBlock H ρ ss) =
        (sl.flatMap (fun l => called ((l.column, l.first) :: l.rest))).flatMap (importsOf H ρ) ∧
      leadsWithSpace L.langItem (history (runBlock H ρ ss)).items = false := by
  have hm := merged_lines (S := S) (fun n hn => (hP n hn).free) sl (fun l hl => (hw l hl).1) base
  rw [← hsp] at hm
  obtain ⟨ns, h1, h2⟩ := merged_parses S hl hm
  have hin : ∀ x ∈ sl.map rowOf, ∀ s ∈ x.slots, SlotIn H ρ L cfg (callsOf H ρ) (linesOf v) s := by
    intro x hx s hs
    obtain ⟨l, hl, rfl⟩ := List.mem_map.1 hx
    obtain ⟨y, t, e1, e2⟩ := rowOf_eq l
    have := slots_in (S := S) hP (hw l hl).1
    rw [e1] at this
    rw [e2] at hs
    rcases List.mem_cons.1 hs with rfl | hs
    · exact this (l.column, s) (List.mem_cons_self ..)
    · obtain ⟨p, hp, rfl⟩ := List.mem_map.1 hs
      exact this p (List.mem_cons_of_mem _ hp)
  have hout := out_filled v cfg (fun n hn => by
    obtain ⟨cs, -, k⟩ := (hP n hn).value
    exact lines_ne k) sl [] hw
  have hne : sl.map rowOf ≠ [] := by simpa using h0
  obtain ⟨r, ss, q1, q2⟩ := C76_template H hv hs ρ L esc hQ cfg (callsOf H ρ) (linesOf v) (sl.map rowOf) hne hin
    (offside_rows sl [] ho) base ns h2
  rw [hout] at q2
  obtain ⟨r', ss', t1, t2, t3⟩ := template_stream H hv hs ρ L cfg (callsOf H ρ) (linesOf v) (sl.map rowOf) hne hin
    (offside_rows sl [] ho) base ns h2
  rw [q1] at t1
  cases t1
  rw [inserted_rows (callsOf H ρ) rfl sl (fun l hl => (hw l hl).1)] at t2
  refine ⟨ns, r, ss, h1, q1, q2, fun hd => ?_, t2, t3⟩
  obtain ⟨r', ss', k1, k2⟩ := C76_nested H hv hs ρ L esc hQ cfg (callsOf H ρ) (linesOf v) (sl.map rowOf) hne hin
    (offside_rows sl [] ho) base ns h2 hd
  rw [q1] at k1
  cases k1
  rwa [hout] at k2

theorem lastDepth_rows : ∀ (ls : List Str), (∀ l ∈ ls, '\n' ∉ l) → ∀ (a : Nat) (past : List Nat),
    lastLevel past ((srcs a ls).map rowOf) = lastDepth past ls
  | [], _, a, past => by cases past <;> rfl
  | l :: ls, h, a, past => by
    have ih := lastDepth_rows ls (fun m hm => h m (by simp [hm]))
    have e : lastDepth past (l :: ls) = if blank l then lastDepth past ls else lastDepth (columnOf l :: past) ls := by
      cases past <;> rfl
    rw [e]
    rcases scan_line l (h l (by simp)) with ⟨hb, hs⟩ | ⟨hb, s, r, hs, -⟩
    · rw [srcs, hs, if_pos hb]
      exact ih _ _
    · rw [srcs, hs, if_neg (by simp [hb])]
      obtain ⟨y, t, -, e2⟩ := rowOf_eq ⟨a, columnOf l, s, r⟩
      simp only [List.map_cons, e2]
      have : ∀ (x : Row (List TT)) (past : List Nat) (xs : List (Row (List TT))),
          lastLevel past (x :: xs) = lastLevel (x.column :: past) xs := by
        intro x past xs; cases past <;> rfl
      rw [this]
      exact ih _ _

theorem source_lines (S : Syn) (H : Host ι (List TT) Env) (hv : ∀ ρ e, ∀ c ∈ H.value ρ e, ¬ EmptyCall c)
    (hs : ∀ ρ e, ∀ c ∈ H.scope ρ e, ¬ EmptyCall c) (ρ : Env) (L : Lang ι) (esc : Char → Str)
    (hQ : ∀ s, L.writeQuoted s = s.map esc) (cfg : Config) (v : Str → List Str) (line k off : Nat) (ls : List Str)
    (hl : ∀ l ∈ ls, '\n' ∉ l) (hp : Holed (Macro.textOf ls)) (hn : nested [] (Macro.textOf ls) = true)
    (ho : offside [] (pad k ls) = true) (hi : ∃ l ∈ ls, blank l = false)
    (hg : ∀ n ∈ names (Macro.textOf ls), Given S H ρ L cfg n (v n)) :
    ∃ ts ns r ss, lex .nightly ⟨line, k, off⟩ (Macro.textOf ls) = some ts ∧ Parses S ts ns ∧
      Macro.quote (ι := ι) none ns = .ok (r, ss) ∧
      toVec L cfg (history (runBlock H ρ ss)).items = some ((rendered cfg [] false (pad k ls)).flatMap (fill v)) ∧
      (lastDepth [] (pad k ls) = 0 →
        BlockOf L cfg (runBlock H ρ ss) ((rendered cfg [] false (pad k ls)).flatMap (fill v))) ∧
      inserted (runBlock H ρ ss) = (names (Macro.textOf ls)).flatMap (importsOf H ρ) ∧
      leadsWithSpace L.langItem (history (runBlock H ρ ss)).items = false := by
  obtain ⟨ts, h1, h2, -, h4⟩ := (lex_holes .nightly ⟨line, k, off⟩ hp.chars hp.apart hp.numbers).1 hn
  cases ls with
  | nil => simp at hi
  | cons l ls =>
    rw [toks_lines ls l line k off line 0 rfl (fun m hm => ⟨all_textOf hp.chars m hm, hl m hm⟩)] at h2
    have hl' : ∀ m ∈ pad k (l :: ls), '\n' ∉ m := by
      intro m hm
      rcases List.mem_cons.1 hm with rfl | hm
      · simp [hl l (by simp)]
      · exact hl m (by simp [hm])
    obtain ⟨k1, k2, k3, k4⟩ := srcs_lines cfg (pad k (l :: ls)) hl' 0 []
    have hne : srcs 0 (pad k (l :: ls)) ≠ [] := by
      rw [Ne, k4]
      intro hall
      obtain ⟨m, hm, hb⟩ := hi
      rcases List.mem_cons.1 hm with rfl | hm
      · have := hall (List.replicate k ' ' ++ m) (by simp [pad])
        simp only [blank, List.all_append, Bool.and_eq_true] at this
        rw [blank, this.2] at hb
        cases hb
      · rw [hall m (by simp [pad, hm])] at hb
        cases hb
    have hw := srcs_words (P := fun n => n ∈ names (Macro.textOf (l :: ls))) (pad k (l :: ls)) (by
      intro m hm
      rcases List.mem_cons.1 hm with rfl | hm
      · obtain ⟨e1, e2⟩ := lines_marked _ hp.marked l (by simp)
        obtain ⟨s1, s2⟩ := marked_spaces k l
        refine ⟨?_, by rw [s1]; exact e1, by rw [s2]; exact e2⟩
        rw [List.all_append, all_textOf hp.chars l (by simp), Bool.and_true, List.all_eq_true]
        intro c hc
        rw [(List.mem_replicate.1 hc).2]
        rfl
      · obtain ⟨e1, e2⟩ := lines_marked _ hp.marked m (by simp [hm])
        exact ⟨all_textOf hp.chars m (by simp [hm]), e1, e2⟩) 0
    obtain ⟨ns, r, ss, r1, r2, r3, r4, r5, r6⟩ := render_holes S H hv hs ρ L esc hQ cfg v hg h4 h2 hne hw (k2.2 ho)
    have hp0 : (List.replicate k ' ' ++ l) :: ls = pad k (l :: ls) := rfl
    rw [hp0, k1] at r3 r4
    rw [lastDepth_rows _ hl'] at r4
    have hm : ∀ m ∈ (List.replicate k ' ' ++ l) :: ls, Spec.Text.marked m = true := by
      intro m hm
      rcases List.mem_cons.1 hm with rfl | hm
      · rw [(marked_spaces k l).1]
        exact (lines_marked _ hp.marked l (by simp)).1
      · exact (lines_marked _ hp.marked m (by simp [hm])).1
    rw [srcs_called _ hm, List.flatMap_cons, (marked_spaces k l).2, ← List.flatMap_cons, ← names_textOf] at r5
    exact ⟨ts, ns, r, ss, h1, r1, r2, r3, r4, r5, r6⟩

/-- C78. Source text with `$name` and `$$` in it. On a nightly compiler, if it keeps to the off-side
rule, its brackets match, and the values of the names are blocks of code, it is lexed, parsed, encoded
and rendered as the lines its own text is rendered as (C74), with every name replaced by the lines of
its value: they start where the name is, the text behind goes on where they end, and all of them are
indented like the line the name is on. If the last line is on the level of the first, it makes a block
of code itself. The text may start in the middle of a line, at column `k`. -/
theorem C78_lines (S : Syn) (H : Host ι (List TT) Env) (hv : ∀ ρ e, ∀ c ∈ H.value ρ e, ¬ EmptyCall c)
    (hs : ∀ ρ e, ∀ c ∈ H.scope ρ e, ¬ EmptyCall c) (ρ : Env) (L : Lang ι) (esc : Char → Str)
    (hQ : ∀ s, L.writeQuoted s = s.map esc) (cfg : Config) (v : Str → List Str) (line k off : Nat) (ls : List Str)
    (hl : ∀ l ∈ ls, '\n' ∉ l) (hp : Holed (Macro.textOf ls)) (hn : nested [] (Macro.textOf ls) = true)
    (ho : offside [] (pad k ls) = true) (hi : ∃ l ∈ ls, blank l = false)
    (hg : ∀ n ∈ names (Macro.textOf ls), Given S H ρ L cfg n (v n)) :
    ∃ ts ns r ss, lex .nightly ⟨line, k, off⟩ (Macro.textOf ls) = some ts ∧ Parses S ts ns ∧
      Macro.quote (ι := ι) none ns = .ok (r, ss) ∧
      toVec L cfg (history (runBlock H ρ ss)).items = some ((rendered cfg [] false (pad k ls)).flatMap (fill v)) ∧
      (lastDepth [] (pad k ls) = 0 →
        BlockOf L cfg (runBlock H ρ ss) ((rendered cfg [] false (pad k ls)).flatMap (fill v))) := by
  obtain ⟨ts, ns, r, ss, h1, h2, h3, h4, h5, -⟩ := source_lines S H hv hs ρ L esc hQ cfg v line k off ls hl hp hn ho hi hg
  exact ⟨ts, ns, r, ss, h1, h2, h3, h4, h5⟩

theorem source_one_line (S : Syn) (H : Host ι (List TT) Env) (hv : ∀ ρ e, ∀ c ∈ H.value ρ e, ¬ EmptyCall c)
    (hs : ∀ ρ e, ∀ c ∈ H.scope ρ e, ¬ EmptyCall c) (ρ : Env) (L : Lang ι) (esc : Char → Str)
    (hQ : ∀ s, L.writeQuoted s = s.map esc) (cfg : Config) (v : Str → List Str) (p : Place) (s : Str)
    (hp : Holed s) (hn : nested [] s = true) (hi : blank (oneLine s) = false)
    (hg : ∀ n ∈ names s, Given S H ρ L cfg n (v n)) :
    ∃ ts ns r ss, lex .stable p s = some ts ∧ Parses S ts ns ∧ Macro.quote (ι := ι) none ns = .ok (r, ss) ∧
      BlockOf L cfg (runBlock H ρ ss) (fill v (tidy (oneLine s))) ∧
      inserted (runBlock H ρ ss) = (names s).flatMap (importsOf H ρ) ∧
      leadsWithSpace L.langItem (history (runBlock H ρ ss)).items = false := by
  obtain ⟨ts, h1, h2, -, h4⟩ := (lex_holes .stable p hp.chars hp.apart hp.numbers).1 hn
  have ht := toks_scan .stable [] (.inl rfl) s p none 1 p.offset 0 [] hp.chars (.inl rfl) rfl (by simp [Compiler.pos])
  rcases scan_line (oneLine s) (oneLine_break s) with ⟨hb, -⟩ | ⟨-, t, r, hsc, ht', hi', hj⟩
  · rw [hb] at hi; cases hi
  · rw [scan_oneLine] at hsc
    have h2' : spelled ts = tokens (placeLines 1 [⟨0, p.offset + columnOf (oneLine s), t, r⟩]) := by
      rw [h2]
      rw [List.append_nil] at ht
      rw [ht, hsc]
      simp [toks, wordTok, placeLines, placeLine, MacroFile.placeRest]
    have hw := scan_words _ s (Nat.le_refl _) hp.chars hp.marked (fun n => n ∈ names s) (fun n hn => hn) 0
    have hk := scan_ink s hp.chars 0 [] (by simp)
    rw [hsc] at hw hk
    obtain ⟨ns, r', ss, r1, r2, r3, r4, r5, r6⟩ := render_holes S H hv hs ρ L esc hQ cfg v hg h4 h2' (by simp)
      (fun l hl => by
        simp only [List.mem_singleton] at hl
        subst hl
        exact ⟨words_at hw _, hk (columnOf (oneLine s), t) (List.mem_cons_self ..)⟩) trivial
    have hc := scan_called _ s (Nat.le_refl _) hp.marked 0
    rw [hsc] at hc
    have hc' : called ((p.offset + columnOf (oneLine s), t) :: r) = names s := by
      rw [← hc]
      cases r <;> rfl
    refine ⟨ts, ns, r', ss, h1, r1, r2, ?_, by simpa [hc'] using r5, r6⟩
    have hlast : lastLevel [] (([⟨0, p.offset + columnOf (oneLine s), t, r⟩] : List SrcLine).map rowOf) = 0 := by
      obtain ⟨y, t', -, e2⟩ := rowOf_eq ⟨0, p.offset + columnOf (oneLine s), t, r⟩
      rw [List.map_singleton, e2]
      rfl
    have ho : MacroFile.outLines cfg [] [⟨0, p.offset + columnOf (oneLine s), t, r⟩] = [tidy (oneLine s)] := by
      rw [← ht']
      cases cfg with
      | mk i n => cases i <;> simp [MacroFile.outLines, depth, enclosing, Spec.marginText, srcText, joined]
    have := r4 hlast
    rwa [ho, List.flatMap_singleton] at this

/-- C78. On other compilers the text is put on one line. There is no rule for columns, and it always
makes a block of code. -/
theorem C78_one_line (S : Syn) (H : Host ι (List TT) Env) (hv : ∀ ρ e, ∀ c ∈ H.value ρ e, ¬ EmptyCall c)
    (hs : ∀ ρ e, ∀ c ∈ H.scope ρ e, ¬ EmptyCall c) (ρ : Env) (L : Lang ι) (esc : Char → Str)
    (hQ : ∀ s, L.writeQuoted s = s.map esc) (cfg : Config) (v : Str → List Str) (p : Place) (s : Str)
    (hp : Holed s) (hn : nested [] s = true) (hi : blank (oneLine s) = false)
    (hg : ∀ n ∈ names s, Given S H ρ L cfg n (v n)) :
    ∃ ts ns r ss, lex .stable p s = some ts ∧ Parses S ts ns ∧ Macro.quote (ι := ι) none ns = .ok (r, ss) ∧
      BlockOf L cfg (runBlock H ρ ss) (fill v (tidy (oneLine s))) := by
  obtain ⟨ts, ns, r, ss, h1, h2, h3, h4, -⟩ := source_one_line S H hv hs ρ L esc hQ cfg v p s hp hn hi hg
  exact ⟨ts, ns, r, ss, h1, h2, h3, h4⟩

/-! ## Sample -/

namespace SourceSample

/-- `v` is a block of three lines, `o` is no block, and other names are texts. -/
def host : Host Str (List TT) Unit where
  value _ e :=
    match e with
    | [.ident _ n] => TemplateSample.host.value () n
    | _ => []
  scope _ _ := []
  iter _ _ _ := []
  test ρ _ := some ρ
  pick _ _ _ _ := none
  bind _ _ _ := ()

def text : List Str := [c!"let x = f($v, [$name + $$]);", c!"    if $v {", c!"      $name", c!"", c!"", c!"    } "]

def values (n : Str) : List Str := if n = ['v'] then [c!"Point {", c!"  x: 1,", c!"  \"y\"", c!"}"] else [n]

theorem full : ∀ ρ e, ∀ c ∈ host.value ρ e, ¬ EmptyCall c := by
  intro ρ e c hc
  unfold host at hc
  simp only at hc
  split at hc
  · exact TemplateSample.full () _ c hc
  · cases hc

/-- The values are blocks. -/
theorem given : ∀ n ∈ names (Macro.textOf text), Given syn host () TemplateSample.lang TemplateSample.cfg n (values n) := by
  intro n hn
  have : n = ['v'] ∨ n = c!"name" := by
    have h : names (Macro.textOf text) = [['v'], c!"name", ['v'], c!"name"] := by decide +kernel
    rw [h] at hn
    simp only [List.mem_cons, List.not_mem_nil, or_false] at hn
    rcases hn with h | h | h | h <;> simp [h]
  rcases this with rfl | rfl
  · exact ⟨by decide +kernel, _, fun _ => rfl, TemplateSample.block_v⟩
  · exact ⟨by decide +kernel, _, fun _ => rfl, C76_text TemplateSample.lang TemplateSample.cfg (.box c!"name") (by decide)⟩

/-- The text meets the hypotheses; it starts behind the delimiter. -/
example : (∀ l ∈ text, '\n' ∉ l) ∧ Holed (Macro.textOf text) ∧ nested [] (Macro.textOf text) = true ∧
    offside [] (pad 4 text) = true ∧ (∃ l ∈ text, blank l = false) ∧ lastDepth [] (pad 4 text) = 0 := by
  decide +kernel

/-- What it is rendered as. -/
example : ∃ ts ns r ss, lex .nightly ⟨7, 4, 90⟩ (Macro.textOf text) = some ts ∧ Parses syn ts ns ∧
    Macro.quote (ι := Str) none ns = .ok (r, ss) ∧
    toVec TemplateSample.lang TemplateSample.cfg (history (runBlock host () ss)).items = some [
      c!"let x = f(Point {", c!"  x: 1,", c!"  \"y\"", c!"}, [name + $]);",
      c!"if Point {", c!"  x: 1,", c!"  \"y\"", c!"} {", c!"  name", c!"", c!"}"] := by
  obtain ⟨ts, ns, r, ss, h1, h2, h3, h4, -⟩ := C78_lines syn host full (fun _ _ _ h => by cases h) ()
    TemplateSample.lang _ (fun _ => rfl) TemplateSample.cfg values 7 4 90 text (by decide +kernel) (by decide +kernel)
    (by decide +kernel) (by decide +kernel) (by decide +kernel) given
  exact ⟨ts, ns, r, ss, h1, h2, h3, h4.trans (by decide +kernel)⟩

/-- On a stable compiler. -/
example : fill values (tidy (oneLine (Macro.textOf text))) = [c!"let x = f(Point {", c!"  x: 1,", c!"  \"y\"",
    c!"}, [name + $]); if Point {", c!"  x: 1,", c!"  \"y\"", c!"} { name }"] := by decide +kernel

end SourceSample

open SourceSample in
/-- C78. A dollar may be apart from the name behind it, but then it is still put together with it, and
the space between them is lost: text like this is not in the claims above. -/
theorem C78_apart : ∃ ts ns ss, lex .nightly ⟨1, 0, 0⟩ c!"a $ name" = some ts ∧ Parses syn ts ns ∧
    Macro.quote (ι := Str) none ns = .ok (false, ss) ∧
    toVec TemplateSample.lang TemplateSample.cfg (history (runBlock host () ss)).items = some [c!"a name"] ∧
    Holed c!"a $name" ∧ ¬ Holed c!"a $ name" :=
  ⟨_, _, _, rfl, ⟨10, rfl⟩, rfl, by decide +kernel, by decide +kernel, by decide +kernel⟩

/-- An underscore is a keyword, so that there is no hole here. -/
example : ∃ ts a b, lex .nightly ⟨1, 0, 0⟩ c!"$_" = some ts ∧ parseAll syn 10 ts = some [.tree a ['$'], .tree b ['_']] :=
  ⟨_, _, _, rfl, rfl⟩

/-- A number with another word behind it is left out of the model of the lexer, and of the claims. -/
example : (lex .nightly ⟨1, 0, 0⟩ c!"2em").isNone = true ∧ ¬ Holed c!"2em" ∧ Holed c!"2 em" := by decide +kernel

end Genco.Props
