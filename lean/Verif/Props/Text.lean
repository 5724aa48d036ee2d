import Verif.Proofs.TextAgain
import Verif.Proofs.Comment
import Verif.Props.Macro

/-!
# C74, C75: plain source text is rendered as it is written, and again the same
-/

set_option autoImplicit false

namespace Genco.Props

open Genco Macro Spec.Text Spec.MacroFile Proofs.TextFile

variable {ι Env : Type}

theorem all_textOf {p : Char → Bool} : ∀ {ls : List Str}, (Macro.textOf ls).all p = true → ∀ l ∈ ls, l.all p = true
  | [], _, l, hl => by simp at hl
  | [l], h, m, hm => by
    simp only [List.mem_singleton] at hm
    subst hm
    exact h
  | l :: k :: ls, h, m, hm => by
    have e : Macro.textOf (l :: k :: ls) = l ++ '\n' :: Macro.textOf (k :: ls) := rfl
    rw [e, List.all_append, List.all_cons, Bool.and_eq_true, Bool.and_eq_true] at h
    rcases List.mem_cons.1 hm with rfl | hm
    · exact h.1
    · exact all_textOf h.2.2 m hm

/-- From tokens to what is rendered. -/
theorem render_toks (S : Syn) (H : Host ι (List TT) Env) (L : Lang ι) (cfg : Config) {ts : List TT} {base : Nat}
    {sl : List SrcLine} (hs : spelled ts = tokens (placeLines base sl)) (hd : dollars ts = false) (h0 : sl ≠ [])
    (hi : ∀ l ∈ sl, Inked l) (ho : Offside [] sl) :
    ∃ ns ss, Parses S ts ns ∧ Macro.quote (ι := ι) none ns = .ok (false, ss) ∧
      ∀ ρ, toVec L cfg (history (runBlock H ρ ss)).items = some (outLines cfg [] sl) := by
  have hm := means_doubled S (fun c => c.start) ts
  rw [doubled_plain _ ts hd] at hm
  obtain ⟨ss, h1, h2⟩ := C60_lines H L cfg base sl h0 hi ho
  refine ⟨wrapped ts, ss, (parses_iff S ts _).2 hm, ?_, h2⟩
  rw [← h1]
  unfold Macro.quote
  rw [nodes_wrapped, hs]

/-- C74. On a nightly compiler, plain text that keeps to the off-side rule and whose brackets match
is lexed, parsed, encoded and rendered as its lines, tidied up, at the levels of the off-side rule,
whatever the language, the variables and the rest of `syn` are. The text may start in the middle of a
line, at column `k`. -/
theorem C74_lines (S : Syn) (H : Host ι (List TT) Env) (L : Lang ι) (cfg : Config) (line k off : Nat)
    (ls : List Str) (hl : ∀ l ∈ ls, '\n' ∉ l) (hp : Plain (Macro.textOf ls)) (hn : nested [] (Macro.textOf ls) = true)
    (ho : offside [] (pad k ls) = true) (hi : ∃ l ∈ ls, blank l = false) :
    ∃ ts ns ss, lex .nightly ⟨line, k, off⟩ (Macro.textOf ls) = some ts ∧ Parses S ts ns ∧
      Macro.quote (ι := ι) none ns = .ok (false, ss) ∧
      ∀ ρ, toVec L cfg (history (runBlock H ρ ss)).items = some (rendered cfg [] false (pad k ls)) := by
  obtain ⟨ts, h1, h2, h3⟩ := (lex_plain .nightly ⟨line, k, off⟩ hp).1 hn
  cases ls with
  | nil => simp at hi
  | cons l ls =>
    rw [toks_lines ls l line k off line 0 rfl (fun m hm => ⟨all_textOf (hole_of_plain hp.chars) m hm, hl m hm⟩)] at h2
    have hl' : ∀ m ∈ pad k (l :: ls), '\n' ∉ m := by
      intro m hm
      rcases List.mem_cons.1 hm with rfl | hm
      · simp [hl l (by simp)]
      · exact hl m (by simp [hm])
    obtain ⟨k1, k2, k3, k4⟩ := srcs_lines cfg (pad k (l :: ls)) hl' 0 []
    have hne : srcs 0 (pad k (l :: ls)) ≠ [] := by
      rw [Ne, k4]
      intro hall
      obtain ⟨m, hm, hb⟩ := hi
      rcases List.mem_cons.1 hm with rfl | hm
      · have := hall (List.replicate k ' ' ++ m) (by simp [pad])
        simp only [blank, List.all_append, Bool.and_eq_true] at this
        rw [blank, this.2] at hb
        cases hb
      · rw [hall m (by simp [pad, hm])] at hb
        cases hb
    obtain ⟨ns, ss, r1, r2, r3⟩ := render_toks S H L cfg h2 h3 hne k3 (k2.2 ho)
    exact ⟨ts, ns, ss, h1, r1, r2, fun ρ => (r3 ρ).trans (congrArg some k1)⟩

/-- C74. On other compilers it is put on one line. There is no rule for columns. -/
theorem C74_one_line (S : Syn) (H : Host ι (List TT) Env) (L : Lang ι) (cfg : Config) (p : Place) (s : Str)
    (hp : Plain s) (hn : nested [] s = true) (hi : blank (oneLine s) = false) :
    ∃ ts ns ss, lex .stable p s = some ts ∧ Parses S ts ns ∧ Macro.quote (ι := ι) none ns = .ok (false, ss) ∧
      ∀ ρ, toVec L cfg (history (runBlock H ρ ss)).items = some [tidy (oneLine s)] := by
  obtain ⟨ts, h1, h2, h3⟩ := (lex_plain .stable p hp).1 hn
  have ht := toks_scan .stable [] (.inl rfl) s p none 1 p.offset 0 [] (hole_of_plain hp.chars) (.inl rfl) rfl (by simp [Compiler.pos])
  rcases scan_line (oneLine s) (oneLine_break s) with ⟨hb, -⟩ | ⟨-, t, r, hs, ht', hi', hj⟩
  · rw [hb] at hi; cases hi
  · rw [scan_oneLine] at hs
    have h2' : spelled ts = tokens (placeLines 1 [⟨0, p.offset + columnOf (oneLine s), t, r⟩]) := by
      rw [h2]
      rw [List.append_nil] at ht
      rw [ht, hs]
      simp [toks, wordTok, placeLines, placeLine, placeRest]
    obtain ⟨ns, ss, r1, r2, r3⟩ := render_toks S H L cfg h2' h3 (by simp)
      (fun l hl => by simp only [List.mem_singleton] at hl; subst hl; exact ⟨hi', hj⟩) trivial
    refine ⟨ts, ns, ss, h1, r1, r2, fun ρ => ?_⟩
    rw [r3, ← ht']
    cases cfg with
    | mk i n => cases i <;> simp [outLines, depth, enclosing, Spec.marginText, srcText, joined]

/-- C74. Which plain text with matching brackets a nightly compiler accepts. -/
theorem C74_accepted (S : Syn) (line k off : Nat) (ls : List Str) (hl : ∀ l ∈ ls, '\n' ∉ l)
    (hp : Plain (Macro.textOf ls)) (hn : nested [] (Macro.textOf ls) = true) :
    ∃ ts ns, lex .nightly ⟨line, k, off⟩ (Macro.textOf ls) = some ts ∧ Parses S ts ns ∧
      ((∃ r ss, Macro.quote (ι := ι) none ns = .ok (r, ss)) ↔ allowed [] (pad k ls) = true) := by
  obtain ⟨ts, h1, h2, h3⟩ := (lex_plain .nightly ⟨line, k, off⟩ hp).1 hn
  have hm := means_doubled S (fun c => c.start) ts
  rw [doubled_plain _ ts h3] at hm
  refine ⟨ts, wrapped ts, h1, (parses_iff S ts _).2 hm, ?_⟩
  have hq : Macro.quote (ι := ι) none (wrapped ts) = Macro.quote none (spelled ts) := by
    unfold Macro.quote
    rw [nodes_wrapped]
  rw [hq, h2]
  have hacc : ∀ us : List Tok, (∃ r ss, Macro.quote (ι := ι) (E := List TT) none (tokens us) = .ok (r, ss)) ↔
      Follow [] us := by
    intro us
    have H : Host ι (List TT) Unit := ⟨fun _ _ => [], fun _ _ => [], fun _ _ _ => [], fun _ _ => none,
      fun _ _ _ _ => none, fun ρ _ _ => ρ⟩
    obtain ⟨a1, a2⟩ := tokens_accepted H us
    exact ⟨fun ⟨r, ss, h⟩ => (a2 r ss h).1, fun h => (a1 h).imp (fun ss h => h) |> fun ⟨ss, h⟩ => ⟨false, ss, h⟩⟩
  rw [hacc]
  cases ls with
  | nil => simp [Macro.textOf, toks, wordTok, Follow, pad, allowed]
  | cons l ls =>
    rw [toks_lines ls l line k off line 0 rfl (fun m hm => ⟨all_textOf (hole_of_plain hp.chars) m hm, hl m hm⟩), follow_all]
    refine srcs_loose _ (fun m hm => ?_) 0 []
    rcases List.mem_cons.1 hm with rfl | hm
    · simp [hl l (by simp)]
    · exact hl m (by simp [hm])

/-- C74. Plain text whose brackets do not match is rejected. -/
theorem C74_unmatched (C : Compiler) (p : Place) (s : Str) (hp : Plain s) (hn : nested [] s = false) :
    lex C p s = none := (lex_plain C p hp).2 hn

/-- C74. Blank text makes no call. -/
theorem C74_blank (S : Syn) (H : Host ι (List TT) Env) (C : Compiler) (p : Place) (s : Str)
    (h : s.all blankChar = true) :
    ∃ ts ns ss, lex C p s = some ts ∧ Parses S ts ns ∧ Macro.quote (ι := ι) none ns = .ok (false, ss) ∧
      ∀ ρ, runBlock H ρ ss = [] := by
  have hc : ∀ c ∈ s, c = ' ' ∨ c = '\n' := by
    intro c hc
    have := List.all_eq_true.1 h c hc
    simpa [blankChar] using this
  have hx : ∀ (s : Str) (p : Place), (∀ c ∈ s, c = ' ' ∨ c = '\n') → lexFrom C p .none s = some [] := by
    intro s
    induction s with
    | nil => intro p _; rfl
    | cons c s ih =>
      intro p h
      rw [lexFrom]
      rcases h c (by simp) with rfl | rfl
      · simp [lexStep, lexFresh, show Char.isWhitespace ' ' = true by decide, ih _ (fun c hc => h c (by simp [hc]))]
      · simp [lexStep, lexFresh, show Char.isWhitespace '\n' = true by decide, ih _ (fun c hc => h c (by simp [hc]))]
  refine ⟨[], [], [], ?_, ⟨2, rfl⟩, rfl, fun ρ => rfl⟩
  simp [lex, hx s p hc, trees]

/-- C74. Comments to the end of a line are read as spaces, whatever is in them. The rest of the text
may be anything without quotation marks. -/
theorem C74_comment (C : Compiler) (p : Place) (s : Str) (hu : undocumented false s = true)
    (hq : '"' ∉ bare false s) (hq' : '\'' ∉ bare false s) : lex C p s = lex C p (bare false s) := by
  rw [lex, lex, (lex_bare C s.length s (Nat.le_refl _)).1 p .none trivial hu hq hq']

/-- C74. So a comment behind plain text is left out, and there is a blank line for one that is alone
on its line. -/
theorem C74_commented (S : Syn) (H : Host ι (List TT) Env) (L : Lang ι) (cfg : Config) (line k off : Nat)
    (ls : List Str) (hl : ∀ l ∈ ls, '\n' ∉ l) (hu : undocumented false (Macro.textOf ls) = true)
    (hp : Plain (Macro.textOf (ls.map (bare false)))) (hn : nested [] (Macro.textOf (ls.map (bare false))) = true)
    (ho : offside [] (pad k (ls.map (bare false))) = true) (hi : ∃ l ∈ ls, blank (bare false l) = false) :
    ∃ ts ns ss, lex .nightly ⟨line, k, off⟩ (Macro.textOf ls) = some ts ∧ Parses S ts ns ∧
      Macro.quote (ι := ι) none ns = .ok (false, ss) ∧
      ∀ ρ, toVec L cfg (history (runBlock H ρ ss)).items = some (rendered cfg [] false (pad k (ls.map (bare false)))) := by
  have hb := bare_textOf ls hl
  have hx : ∀ c : Char, plainChar c = false → c ∉ bare false (Macro.textOf ls) := by
    intro c hc hm
    rw [hb] at hm
    have := List.all_eq_true.1 hp.chars c hm
    rw [hc] at this
    cases this
  rw [C74_comment _ _ _ hu (hx _ (by decide)) (hx _ (by decide)), hb]
  refine C74_lines S H L cfg line k off _ (fun l hl' => ?_) hp hn ho ?_
  · obtain ⟨m, hm, rfl⟩ := List.mem_map.1 hl'
    exact bare_noBreak m false (hl m hm)
  · obtain ⟨l, h1, h2⟩ := hi
    exact ⟨_, List.mem_map_of_mem h1, h2⟩

/-- C75. What is rendered with spaces for text of C74 is text of C74 that starts at the beginning
of a line, and it is rendered, with any configuration, as the text it came from. -/
theorem C75_again (cfg : Config) (n : Nat) (hn : 0 < n) (nl : Str) (k : Nat)
    (ls : List Str) (hl : ∀ l ∈ ls, '\n' ∉ l) (hp : Plain (Macro.textOf ls)) (hn' : nested [] (Macro.textOf ls) = true)
    (ho : offside [] (pad k ls) = true) (hi : ∃ l ∈ ls, blank l = false) :
    let out := rendered ⟨.space n, nl⟩ [] false (pad k ls)
    (∀ l ∈ out, '\n' ∉ l) ∧ Plain (Macro.textOf out) ∧ nested [] (Macro.textOf out) = true ∧
      offside [] (pad 0 out) = true ∧ (∃ l ∈ out, blank l = false) ∧
      rendered cfg [] false (pad 0 out) = rendered cfg [] false (pad k ls) := by
  have hpad : ∀ ls, pad 0 ls = ls := fun ls => by cases ls <;> rfl
  have hpieces : ∀ ls, (pad k ls).flatMap (pieces []) = ls.flatMap (pieces []) := by
    intro ls
    cases ls with
    | nil => rfl
    | cons l ls => rw [pad, List.flatMap_cons, List.flatMap_cons, pieces_spaces]
  have hw : pieces [] (Macro.textOf ls) =
      pieces [] (Macro.textOf (rendered ⟨.space n, nl⟩ [] false (pad k ls))) := by
    rw [pieces_textOf, pieces_textOf, rendered_pieces, hpieces]
  obtain ⟨h1, h2⟩ := rendered_again n hn nl cfg (pad k ls) [] false ho
  intro out
  rw [hpad]
  refine ⟨?_, plain_pieces hw hp, by rw [← nested_pieces hw]; exact hn', h2, ?_, h1⟩
  · refine rendered_break n nl _ (fun l hl' => ?_) [] false
    cases ls with
    | nil => cases hl'
    | cons m ls =>
      rcases List.mem_cons.1 hl' with rfl | hl'
      · simp [hl m (by simp)]
      · exact hl l (by simp [hl'])
  · refine rendered_ink _ _ ?_ [] false
    obtain ⟨l, hl', hb⟩ := hi
    cases ls with
    | nil => cases hl'
    | cons m ls =>
      rcases List.mem_cons.1 hl' with rfl | hl'
      · exact ⟨_, List.mem_cons_self, by rw [blank, List.all_append, show l.all _ = false from hb, Bool.and_false]⟩
      · exact ⟨l, by simp [pad, hl'], hb⟩

/-- C75. What the macro renders with spaces is rendered unchanged when it is put into the macro. -/
theorem C75_fixed (S : Syn) (H : Host ι (List TT) Env) (L : Lang ι) (n : Nat) (hn : 0 < n) (nl : Str) (line k off : Nat)
    (ls : List Str) (hl : ∀ l ∈ ls, '\n' ∉ l) (hp : Plain (Macro.textOf ls)) (hn' : nested [] (Macro.textOf ls) = true)
    (ho : offside [] (pad k ls) = true) (hi : ∃ l ∈ ls, blank l = false) :
    ∃ ts ns ss out, lex .nightly ⟨line, k, off⟩ (Macro.textOf ls) = some ts ∧ Parses S ts ns ∧
      Macro.quote (ι := ι) none ns = .ok (false, ss) ∧
      (∀ ρ, toVec L ⟨.space n, nl⟩ (history (runBlock H ρ ss)).items = some out) ∧
      ∃ ts ns ss, lex .nightly ⟨1, 0, 0⟩ (Macro.textOf out) = some ts ∧ Parses S ts ns ∧
        Macro.quote (ι := ι) none ns = .ok (false, ss) ∧
        ∀ ρ, toVec L ⟨.space n, nl⟩ (history (runBlock H ρ ss)).items = some out := by
  obtain ⟨ts, ns, ss, h1, h2, h3, h4⟩ := C74_lines S H L ⟨.space n, nl⟩ line k off ls hl hp hn' ho hi
  obtain ⟨g1, g2, g3, g4, g5, g6⟩ := C75_again ⟨.space n, nl⟩ n hn nl k ls hl hp hn' ho hi
  obtain ⟨ts', ns', ss', r1, r2, r3, r4⟩ := C74_lines S H L ⟨.space n, nl⟩ 1 0 0 _ g1 g2 g3 g4 g5
  exact ⟨ts, ns, ss, _, h1, h2, h3, h4, ts', ns', ss', r1, r2, r3, fun ρ => (r4 ρ).trans (congrArg some g6)⟩

/-- C75. Without indentation the levels are lost. -/
theorem C75_negative : offside [] [c!"a", c!" b"] = true ∧
    rendered ⟨.space 1, ['\n']⟩ [] false (rendered ⟨.space 0, ['\n']⟩ [] false [c!"a", c!" b"]) ≠
      rendered ⟨.space 1, ['\n']⟩ [] false [c!"a", c!" b"] := by decide +kernel

/-! ## Samples -/

namespace TextSample

/-- The input of a macro that starts behind `quote! {`. -/
def input : List Str := [c!"", c!"        fn  main() {", c!"            let x = [1,  2];   ", c!"   ", c!"",
  c!"            if a <= b { return; }", c!"        }", c!"        #[test]", c!"    "]

example : (∀ l ∈ input, '\n' ∉ l) ∧ Plain (Macro.textOf input) ∧ nested [] (Macro.textOf input) = true ∧
    offside [] (pad 20 input) = true ∧ ∃ l ∈ input, blank l = false := by decide +kernel

example : rendered ⟨.space 2, ['\n']⟩ [] false (pad 20 input) =
    [c!"fn main() {", c!"  let x = [1, 2];", c!"", c!"  if a <= b { return; }", c!"}", c!"#[test]"] := by
  decide +kernel

example : tidy (oneLine (Macro.textOf input)) =
    c!"fn main() { let x = [1, 2]; if a <= b { return; } } #[test]" := by decide +kernel

/-- What is rendered is rendered again, here with another indentation. -/
example : rendered ⟨.space 4, ['\n']⟩ [] false (rendered ⟨.space 2, ['\n']⟩ [] false (pad 20 input)) =
    [c!"fn main() {", c!"    let x = [1, 2];", c!"", c!"    if a <= b { return; }", c!"}", c!"#[test]"] := by
  decide +kernel

/-- Comments: one alone on a line makes a blank line. -/
def commented : List Str := [c!"", c!"    a; // \"it's\"", c!"    // ü // $x", c!"    b //"]

example : (∀ l ∈ commented, '\n' ∉ l) ∧ undocumented false (Macro.textOf commented) = true ∧
    Plain (Macro.textOf (commented.map (bare false))) ∧ nested [] (Macro.textOf (commented.map (bare false))) = true ∧
    offside [] (pad 8 (commented.map (bare false))) = true ∧ (∃ l ∈ commented, blank (bare false l) = false) ∧
    rendered ⟨.space 2, ['\n']⟩ [] false (pad 8 (commented.map (bare false))) = [c!"a;", c!"", c!"b"] := by
  decide +kernel

/-- Documentation is refused by the model. -/
example : undocumented false c!"a /// b" = false ∧ undocumented false c!"a // /// b" = true := by decide +kernel

/-- The first line is behind the opening delimiter; the second one is further out, so that it is not
set apart (C54). -/
example : offside [] (pad 20 [c!"a", c!"    b"]) = false ∧ allowed [] (pad 20 [c!"a", c!"    b"]) = true := by
  decide +kernel

/-- A line between two levels is rejected. -/
example : allowed [] [c!"a", c!"    b", c!"  c"] = false := by decide +kernel

/-- Brackets that do not match. -/
example : Plain c!"f(]" ∧ nested [] c!"f(]" = false := by decide +kernel

/-- What is not plain. -/
example : ¬ Plain c!"a // b" ∧ ¬ Plain c!"$x" ∧ ¬ Plain c!"a#b" ∧ ¬ Plain c!"0x1" ∧ Plain c!"# a - / *" := by
  decide +kernel

end TextSample

end Genco.Props
