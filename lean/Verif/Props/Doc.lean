import Verif.Proofs.DocCode
import Verif.Props.SourceFile

/-!
# C81: templates in source text
-/

set_option autoImplicit false

namespace Genco.Props

open Genco Macro Spec Spec.Text Spec.MacroFile Spec.Doc Proofs.DocFile Proofs.Rounds

variable {ι Env : Type}

/-- Holes that give no variables. -/
theorem told_all {C : Compiler} {S : Syn} {L : Lang ι} {cfg : Config} {H : Host ι (List TT) Env} {ρ : Env} :
    ∀ {xs : List (Nat × Str × List Str × List ι)}, (∀ x ∈ xs, Told C S L cfg H ρ (.hole x.1 x.2.1 x.2.2.1 x.2.2.2)) →
    Told C S L cfg H ρ (.holes xs ρ)
  | [], _ => .noHoles
  | x :: _, h => .nextHole (h x (by simp)) (told_all (fun y hy => h y (by simp [hy])))

theorem doc_meant (cc : Compiler) (S : Syn) (H : Host ι (List TT) Env) (hv : ∀ ρ e, ∀ c ∈ H.value ρ e, ¬ EmptyCall c)
    (hs : ∀ ρ e, ∀ c ∈ H.scope ρ e, ¬ EmptyCall c) (ρ : Env) (L : Lang ι) (esc : Char → Str)
    (hQ : ∀ s, L.writeQuoted s = s.map esc) (cfg : Config) (line k off : Nat) (ls : List (Line ι)) (hf : Fit k (seenBy cc ls))
    {ρ' : Env} (hh : Told cc S L cfg H ρ (.holes (holesOf k ls) ρ')) :
    ∃ ts ns r ss, Meant cc S L cfg H ρ k (sourceOf ls) (seenBy cc ls) ⟨line, k, off⟩ ts ns r ss :=
  text_meant hv hs (homQuote_of_map L esc hQ) hf (.inr rfl)
    (heldIn_of (.inr rfl) hf.sound (told_good (homQuote_of_map L esc hQ) hh ⟨hv, hs⟩))

/-- C81. Source text with holes of all kinds in it, on either compiler: the lexer reads it, the parser
of the macros takes it, the quoter does not panic, and what the generated code makes is rendered as the
lines of the text, with the lines each hole stands for in its place. It imports what the holes import, in
their order, and starts with text. Holes that write nothing are left out, and so are the lines on which
there is nothing else. If the text ends at the level at which it starts, and its first and its last thing
write something, then it is a block, and can stand in a hole itself. -/
theorem C81_lines (cc : Compiler) (S : Syn) (H : Host ι (List TT) Env) (hv : ∀ ρ e, ∀ c ∈ H.value ρ e, ¬ EmptyCall c)
    (hs : ∀ ρ e, ∀ c ∈ H.scope ρ e, ¬ EmptyCall c) (ρ : Env) (L : Lang ι) (esc : Char → Str)
    (hQ : ∀ s, L.writeQuoted s = s.map esc) (cfg : Config) (line k off : Nat) (ls : List (Line ι)) (hf : Fit k (seenBy cc ls))
    {ρ' : Env} (hh : Told cc S L cfg H ρ (.holes (holesOf k ls) ρ')) :
    ∃ ts ns r ss, lex cc ⟨line, k, off⟩ (sourceOf ls) = some ts ∧ Parses S ts ns ∧
      Macro.quote (ι := ι) none ns = .ok (r, ss) ∧
      toVec L cfg (history (runBlock H ρ ss)).items = some (Doc.linesOf cfg k (seenBy cc ls)) ∧
      inserted (runBlock H ρ ss) = Doc.importsOf ls ∧
      leadsWithSpace L.langItem (history (runBlock H ρ ss)).items = false ∧
      (lastDepth [] ((Doc.pad k (seenBy cc ls)).map shape) = 0 → framed ls = true → Template.BlockOf L cfg (runBlock H ρ ss) (Doc.linesOf cfg k (seenBy cc ls))) := by
  obtain ⟨ts, ns, r, ss, h⟩ := doc_meant cc S H hv hs ρ L esc hQ cfg line k off ls hf hh
  exact ⟨ts, ns, r, ss, h.reads.lex halt_nil, (parses_iff _ _ _).2 h.means, h.quoted, h.lines, h.imports.trans (seen_imports cc ls), h.leads,
    fun hl hb => ⟨h.block hl (by rw [framed, seen_things]; exact hb), h.uniform, h.lines⟩⟩

/-- C81. The rules give a text one meaning: if it can be divided in two ways into characters and holes,
the lines and the imports are the same. -/
theorem C81_unambiguous (cc : Compiler) (S : Syn) (H : Host ι (List TT) Env) (hv : ∀ ρ e, ∀ c ∈ H.value ρ e, ¬ EmptyCall c)
    (hs : ∀ ρ e, ∀ c ∈ H.scope ρ e, ¬ EmptyCall c) (ρ : Env) (L : Lang ι) (esc : Char → Str)
    (hQ : ∀ s, L.writeQuoted s = s.map esc) (cfg : Config) (k : Nat) (ls ls' : List (Line ι)) (hf : Fit k (seenBy cc ls)) (hf' : Fit k (seenBy cc ls'))
    (he : sourceOf ls = sourceOf ls')
    {ρ' : Env} (hh : Told cc S L cfg H ρ (.holes (holesOf k ls) ρ'))
    {ρ'' : Env} (hh' : Told cc S L cfg H ρ (.holes (holesOf k ls') ρ'')) :
    Doc.linesOf cfg k (seenBy cc ls) = Doc.linesOf cfg k (seenBy cc ls') ∧ Doc.importsOf ls = Doc.importsOf ls' := by
  obtain ⟨ts, ns, r, ss, h⟩ := doc_meant cc S H hv hs ρ L esc hQ cfg 1 k 0 ls hf hh
  obtain ⟨ts', ns', r', ss', h'⟩ := doc_meant cc S H hv hs ρ L esc hQ cfg 1 k 0 ls' hf' hh'
  have e1 := h.reads.lex halt_nil
  rw [he, h'.reads.lex halt_nil] at e1
  cases e1
  have e2 := means_unique h.means h'.means
  subst e2
  have e3 := h.quoted
  rw [h'.quoted] at e3
  cases e3
  have e4 := h.lines
  rw [h'.lines] at e4
  exact ⟨(Option.some.inj e4).symm, (seen_imports cc ls).symm.trans (h.imports.symm.trans (h'.imports.trans (seen_imports cc ls')))⟩

/-- C81. What `quote!` makes of source text with holes of all kinds in it. -/
theorem C81_quote (cc : Compiler) (K : Host ι Macro.Code Env) (hK : Text.Full K) (ρ : Env) (L : Lang ι) (esc : Char → Str)
    (hQ : ∀ s, L.writeQuoted s = s.map esc) (cfg : Config) (line k off : Nat) (ls : List (Line ι)) (hf : Fit k (seenBy cc ls))
    {ρ' : Env} (hh : Told cc syn L cfg K.anywhere ρ (.holes (holesOf k ls) ρ'))
    (src : List Str) (he : Macro.textOf src = sourceOf ls) :
    ∃ cs, Invocation.make cc K ρ ⟨⟨line, k, off⟩, src⟩ = some (history cs) ∧
      inserted cs = Doc.importsOf ls ∧ leadsWithSpace L.langItem (history cs).items = false ∧
      toVec L cfg (history cs).items = some (Doc.linesOf cfg k (seenBy cc ls)) ∧
      (lastDepth [] ((Doc.pad k (seenBy cc ls)).map shape) = 0 → framed ls = true → Template.BlockOf L cfg cs (Doc.linesOf cfg k (seenBy cc ls))) := by
  obtain ⟨ts, ns, r, ss, h⟩ := doc_meant cc syn K.anywhere (fun ρ e => hK.1 ρ _) (fun ρ e => hK.2 ρ _) ρ L esc hQ cfg line k off ls hf hh
  have hq := (C79_quote cc ⟨⟨line, k, off⟩, src⟩ ss).2 ⟨ts, ns, r, by rw [he]; exact h.reads.lex halt_nil, h.means, h.quoted⟩
  exact ⟨_, by rw [Invocation.make, hq]; rfl, h.imports.trans (seen_imports cc ls), h.leads, h.lines,
    fun hl hb => ⟨h.block hl (by rw [framed, seen_things]; exact hb), h.uniform, h.lines⟩⟩

/-- C81. What `quote!` makes of source text on a compiler without line numbers: line breaks and indentation
of the text are as good as a space. Without the holes that write nothing, all of it is one line, with single
spaces in it, and with the lines of the holes in their places. It is a block if its first and its last thing
write something. -/
theorem C81_stable (K : Host ι Macro.Code Env) (hK : Text.Full K) (ρ : Env) (L : Lang ι) (esc : Char → Str)
    (hQ : ∀ s, L.writeQuoted s = s.map esc) (cfg : Config) (line k off : Nat) (ls : List (Line ι)) (hf : Fit k [oneLine ls])
    {ρ' : Env} (hh : Told .stable syn L cfg K.anywhere ρ (.holes (holesOf k ls) ρ'))
    (src : List Str) (he : Macro.textOf src = sourceOf ls) :
    ∃ cs, Invocation.make .stable K ρ ⟨⟨line, k, off⟩, src⟩ = some (history cs) ∧ inserted cs = Doc.importsOf ls ∧
      toVec L cfg (history cs).items = some (Doc.filled (Doc.tidy (strip (oneLine ls)))) ∧
      (framed ls = true → Template.BlockOf L cfg cs (Doc.filled (Doc.tidy (strip (oneLine ls))))) := by
  obtain ⟨cs, h1, h2, -, h4, h5⟩ := C81_quote .stable K hK ρ L esc hQ cfg line k off ls hf hh src he
  have hh : hollow (oneLine ls) = false := by
    obtain ⟨l, hl, h⟩ := hf.ink
    cases List.mem_singleton.1 hl
    exact h
  have e : Doc.linesOf cfg k (seenBy .stable ls) = Doc.filled (Doc.tidy (strip (oneLine ls))) := by
    rw [seenBy, one_lines, hh]
    rfl
  rw [e] at h4 h5
  exact ⟨cs, h1, h2, h4, h5 (one_level _ _)⟩

/-- C81. A string is a block: the text between the quotation marks of the language. -/
theorem C81_string (L : Lang ι) (cfg : Config) (v : Str)
    (h : (L.openQuote false).flatten ++ (L.writeQuoted v).flatten ++ (L.closeQuote false).flatten ≠ []) :
    Template.BlockOf L cfg [.append (.openQuote false), .append (.literal (.static v)), .append .closeQuote]
      [(L.openQuote false).flatten ++ (L.writeQuoted v).flatten ++ (L.closeQuote false).flatten] := by
  have ha : (Code.quote false (.item (.literal (.static v)) .nil) .nil : Code ι).acts L cfg =
      (L.openQuote false ++ L.writeQuoted v ++ L.closeQuote false).map .text := by
    simp [Code.acts, Body.acts, quotedActs, ItemStr.text]
  refine ⟨⟨⟨_, _, rfl, rfl⟩, ⟨[_, _], _, rfl, rfl⟩, .quote false (.item (.literal (.static v)) .nil) .nil, rfl, rfl, ?_⟩,
    .inr (fun x hx => ?_), ?_⟩
  · rw [ha]
    exact whole_texts _ (by simpa using h)
  · simp only [List.flatMap_cons, callItems, List.flatMap_nil, List.append_nil, List.mem_append, List.mem_singleton] at hx
    rcases hx with rfl | rfl | rfl <;> rfl
  · have hr := resolveItems_code L cfg (.quote false (.item (.literal (.static v)) .nil) .nil) rfl
    have z : marginText cfg 0 = [] := by unfold marginText; cases cfg.indentation <;> simp
    rw [toVec_eq, show (history [.append (.openQuote false), .append (.literal (.static v)), .append .closeQuote]).items =
      (Code.quote false (.item (.literal (.static v)) .nil) .nil : Code ι).items from rfl, hr, ha]
    rw [vec_texts cfg _ _ _ (.inl rfl) (by simpa [flushPad, LSt.new] using z)]
    simp [VecState.intoVec, VecState.new]

/-- C81. A string with code on one line each is one line: the quotation marks, and between them the text of
each part, escaped, and the code, with the marks of an evaluation around it. -/
theorem C81_strings (L : Lang ι) (bs : List (Str × Bool)) :
    stringLines L (bs.map fun b => if b.2 then .code [b.1] else .text b.1) =
      [(L.openQuote (bs.any Prod.snd)).flatten ++
        bs.flatMap (fun b => if b.2 then L.startEval.flatten ++ (b.1 ++ L.endEval.flatten) else (L.writeQuoted b.1).flatten) ++
        (L.closeQuote (bs.any Prod.snd)).flatten] := by
  have e1 : (bs.map fun b => if b.2 then Stretch.code [b.1] else .text b.1).any Stretch.isCode = bs.any Prod.snd := by
    rw [List.any_map]
    congr 1
    funext b
    obtain ⟨s, b⟩ := b
    cases b <;> rfl
  have e2 : ∀ a : Str, ((bs.map fun b => if b.2 then Stretch.code [b.1] else .text b.1).map (Stretch.lines L)).foldl
      (fun a b => Template.seam a [] b) [a] =
      [a ++ bs.flatMap (fun b => if b.2 then L.startEval.flatten ++ (b.1 ++ L.endEval.flatten) else (L.writeQuoted b.1).flatten)] := by
    clear e1
    induction bs with
    | nil => intro a; simp
    | cons b bs ih =>
      intro a
      obtain ⟨s, b⟩ := b
      rw [List.map_cons, List.map_cons, List.foldl_cons, List.flatMap_cons]
      cases b
      · rw [show Template.seam [a] [] (Stretch.lines L (if (s, false).2 = true then Stretch.code [(s, false).1] else Stretch.text (s, false).1)) =
          [a ++ (L.writeQuoted s).flatten] by simp [Stretch.lines, Template.seam], ih]
        simp
      · rw [show Template.seam [a] [] (Stretch.lines L (if (s, true).2 = true then Stretch.code [(s, true).1] else Stretch.text (s, true).1)) =
          [a ++ (L.startEval.flatten ++ (s ++ L.endEval.flatten))] by simp [Stretch.lines, Template.seam], ih]
        simp
  rw [stringLines, e1, e2]
  simp [Template.seam]

/-! ## Simple code -/

/-- C81. The tokens of code are the same wherever the code is, but for their places: what a check of the
tokens finds at one place is found at all. -/
theorem C81_code (C : Compiler) (e : Str) :
    (simpleExpr e = true → IsExpr C syn e ∧ Always C e (fun ts => wordsAll ts = code e)) ∧
    (simplePat e = true → Doc.Reads C e ∧ Always C e (Takes syn.pat endsPat) ∧ Always C e (fun ts => wordsAll ts = code e)) ∧
    (simpleArm e = true → Doc.Reads C e ∧
      (∀ g, Always C e (fun tp => Takes syn.patMulti (endsArm g) tp ∧ tp ≠ [] ∧ begins isComma tp = false)) ∧
      Always C e (fun ts => wordsAll ts = code e)) ∧
    (simpleGuard e = true → Doc.Reads C e ∧ Always C e (Takes syn.fullExpr (endsArm false)) ∧ Always C e (fun ts => wordsAll ts = code e)) ∧
    (simpleLine e = true → Always C e (fun ts => inLine ts = true)) ∧
    (simpleValue e = true → Doc.Reads C e ∧
      Always C e (fun ts => begins isLead ts = false ∧ (∀ c s text, ts ≠ [.str c s text]) ∧ syn.fullExpr ts = some (ts, [])) ∧
      Always C e (fun ts => wordsAll ts = code e)) ∧
    ∀ p, simplePat p = true → simpleExpr e = true →
      Always C p (Takes syn.pat startsEq) ∧ Always C e (fun te => syn.expr te = some (te, [])) :=
  ⟨simple_expr C, simple_pat C, simple_arm C, simple_guard C, simple_line C, simple_value C, fun _ => simple_let C⟩

/-- C81. Where code ends: at `=>`, at `{`, at a word or at `=`, and nowhere else. -/
theorem C81_ends (ts : List TT) :
    ((fatArrow ts).isSome = true ↔ ∃ a b j r, ts = arrow a b j ++ r) ∧
    (∀ w, startsWith w ts = true ↔ ∃ c r, ts = .ident c w.toList :: r) ∧
    (startsBrace ts = true ↔ ∃ c content r, ts = .group c .brace content :: r) ∧
    (startsEq ts = true ↔ ∃ c j r, ts = .punct c '=' j :: r) ∧
    (exprEnd ts = true ↔ (fatArrow ts).isSome = true ∨ ∃ c r, ts = .ident c "join".toList :: r) := by
  have hw : ∀ w, startsWith w ts = true ↔ ∃ c r, ts = .ident c w.toList :: r :=
    fun w => ⟨starts_split, fun ⟨c, r, e⟩ => by subst e; simp [startsWith]⟩
  refine ⟨?_, hw, ?_, ?_, ?_⟩
  · constructor
    · intro h
      obtain ⟨r, h⟩ := Option.isSome_iff_exists.1 h
      obtain ⟨a, b, j, e⟩ := arrow_of_fatArrow h
      exact ⟨a, b, j, r, e⟩
    · rintro ⟨a, b, j, r, rfl⟩; rfl
  · constructor
    · intro h
      unfold startsBrace at h
      split at h
      · exact ⟨_, _, _, rfl⟩
      · cases h
    · rintro ⟨c, x, r, rfl⟩; rfl
  · constructor
    · intro h
      unfold startsEq at h
      split at h
      · rw [beq_iff_eq.1 h]; exact ⟨_, _, _, rfl⟩
      · cases h
    · rintro ⟨c, j, r, rfl⟩; rfl
  · rw [exprEnd, Bool.or_eq_true, hw]

theorem fit_of {k : Nat} {ls : List (Line ι)} (h : fits k ls = true) : Fit k ls := by
  simp only [fits, Bool.and_eq_true, List.all_eq_true, List.any_eq_true, Bool.not_eq_true'] at h
  obtain ⟨⟨⟨⟨h1, h2⟩, h3⟩, h4⟩, h5⟩ := h
  refine ⟨fun l hl => ?_, h2, h3, h4, h5⟩
  obtain ⟨⟨⟨a1, a2⟩, a3⟩, a4⟩ := h1 l hl
  refine ⟨fun c hc => ?_, a2, a3, a4⟩
  have := a1 _ hc
  simpa using this

section Rules

variable {K : Host ι Macro.Code Env} {ρ : Env} {L : Lang ι} {cfg : Config} {C : Compiler} {k : Nat}

theorem told_name {n : Str} {vs : List Str} {is : List ι} (c : Char) (r : Str) (hn : n = c :: r) (hw : n.all nameChar = true)
    (hd : c.isDigit = false) (hk : n ∉ keywords) (hb : Makes L cfg (K.value ρ [n]) vs) (hi : inserted (K.value ρ [n]) = is) :
    Told C syn L cfg K.anywhere ρ (.hole k ('$' :: n) vs is) :=
  .name c r hn hw hd (by show keywords.contains n = false; simpa using hk) ⟨_, fun _ => rfl, hb, hi⟩

theorem told_value {e : Str} {vs : List Str} {is : List ι} (he : simpleValue e = true)
    (hb : Makes L cfg (K.value ρ (code e)) vs) (hi : inserted (K.value ρ (code e)) = is) :
    Told C syn L cfg K.anywhere ρ (.hole k (c!"$(" ++ (e ++ c!")")) vs is) := by
  obtain ⟨h1, h2, h3⟩ := simple_value C he
  exact .value h1 h2 ⟨_, fun p ts ht => congrArg (K.value ρ) (h3 p ts ht), hb, hi⟩

theorem told_if {c b : Str} {vs : List Str} {is : List ι} (br : Bool) (ρ' : Env) (hc : simpleExpr c = true)
    (ht : K.test ρ (code c) = some ρ') (h : Told C syn L cfg K.anywhere ρ' (.text (bodyAt k (c!"$(if " ++ c) br) b vs is)) :
    Told C syn L cfg K.anywhere ρ (.hole k (c!"$(if " ++ (c ++ (bodyOf br b ++ c!")"))) vs is) := by
  obtain ⟨h1, h2⟩ := simple_expr C hc
  exact .ifThen br ρ' h1 (fun p ts hts => (congrArg (K.test ρ) (h2 p ts hts)).trans ht) h

theorem told_ifElse {c b d : Str} {vs vs' : List Str} {is is' : List ι} (ρ' : Env) (hc : simpleExpr c = true)
    (ht : K.test ρ (code c) = some ρ') (h : Told C syn L cfg K.anywhere ρ' (.text (bodyAt k (c!"$(if " ++ c) true) b vs is))
    (h' : Told C syn L cfg (idle ι (List TT) Env) ρ (.text (Doc.behind k (c!"$(if " ++ (c ++ (c!" {" ++ (b ++ c!"} else {"))))) d vs' is')) :
    Told C syn L cfg K.anywhere ρ (.hole k (c!"$(if " ++ (c ++ (c!" {" ++ (b ++ (c!"} else {" ++ (d ++ c!"})")))))) vs is) := by
  obtain ⟨h1, h2⟩ := simple_expr C hc
  exact .ifElse ρ' h1 (fun p ts hts => (congrArg (K.test ρ) (h2 p ts hts)).trans ht) h h'

theorem told_orElse {c b d : Str} {vs vs' : List Str} {is is' : List ι} (hc : simpleExpr c = true) (ht : K.test ρ (code c) = none)
    (h : Told C syn L cfg (idle ι (List TT) Env) ρ (.text (bodyAt k (c!"$(if " ++ c) true) b vs' is'))
    (h' : Told C syn L cfg K.anywhere ρ (.text (Doc.behind k (c!"$(if " ++ (c ++ (c!" {" ++ (b ++ c!"} else {"))))) d vs is)) :
    Told C syn L cfg K.anywhere ρ (.hole k (c!"$(if " ++ (c ++ (c!" {" ++ (b ++ (c!"} else {" ++ (d ++ c!"})")))))) vs is) := by
  obtain ⟨h1, h2⟩ := simple_expr C hc
  exact .orElse h1 (fun p ts hts => (congrArg (K.test ρ) (h2 p ts hts)).trans ht) h h'

theorem told_joined {p e q b : Str} {sep : Template.Sep} (br : Bool) (rounds : List Env) (v : Env → List Str) (i : Env → List ι)
    (hr : rounds ≠ []) (hp : simplePat p = true) (he : simpleExpr e = true) (hi : K.iter ρ (code p) (code e) = rounds) (hs : IsSep q sep)
    (hn : ∀ ρ' ∈ rounds, v ρ' ≠ [])
    (h : ∀ ρ' ∈ rounds, Told C syn L cfg K.anywhere ρ'
      (.text (bodyAt k (c!"$(for " ++ (p ++ (c!" in " ++ (e ++ (c!" join (" ++ (q ++ c!")")))))) br) b (v ρ') (i ρ'))) :
    Told C syn L cfg K.anywhere ρ (.hole k (c!"$(for " ++ (p ++ (c!" in " ++ (e ++ (c!" join (" ++ (q ++ (c!")" ++ (bodyOf br b ++ c!")"))))))))
      (sep.lines (rounds.map v)) (rounds.flatMap i)) := by
  obtain ⟨h1, h2⟩ := simple_expr C he
  obtain ⟨h3, h4, h5⟩ := simple_pat C hp
  refine .joined br rounds v i hr h3 h4 h1 (fun p ts hts q us hus => ?_) hs hn h
  show K.iter ρ (wordsAll ts) (wordsAll us) = rounds
  rw [h5 p ts hts, h2 q us hus, hi]

theorem told_loop {p e b : Str} (br : Bool) (rounds : List Env) (v : Env → List Str) (i : Env → List ι)
    (hr : rounds ≠ []) (hp : simplePat p = true) (he : simpleExpr e = true) (hi : K.iter ρ (code p) (code e) = rounds)
    (h : ∀ ρ' ∈ rounds, Told C syn L cfg K.anywhere ρ' (.text (bodyAt k (c!"$(for " ++ (p ++ (c!" in " ++ e))) br) b (v ρ') (i ρ'))) :
    Told C syn L cfg K.anywhere ρ (.hole k (c!"$(for " ++ (p ++ (c!" in " ++ (e ++ (bodyOf br b ++ c!")")))))
      ((Template.Sep.gap false).lines ((rounds.map v).filter (fun vs => !vs.isEmpty))) (rounds.flatMap i)) := by
  obtain ⟨h1, h2⟩ := simple_expr C he
  obtain ⟨h3, h4, h5⟩ := simple_pat C hp
  refine .loop br rounds v i hr h3 h4 h1 (fun p ts hts q us hus => ?_) h
  show K.iter ρ (wordsAll ts) (wordsAll us) = rounds
  rw [h5 p ts hts, h2 q us hus, hi]

/-- A condition that does not hold: its text is read, and nothing is written. -/
theorem told_ifNot {c b : Str} {vs : List Str} {is : List ι} (br : Bool) (hc : simpleExpr c = true) (ht : K.test ρ (code c) = none)
    (h : Told C syn L cfg (idle ι (List TT) Env) ρ (.text (bodyAt k (c!"$(if " ++ c) br) b vs is)) :
    Told C syn L cfg K.anywhere ρ (.hole k (c!"$(if " ++ (c ++ (bodyOf br b ++ c!")"))) [] []) := by
  obtain ⟨h1, h2⟩ := simple_expr C hc
  exact .ifNot br h1 (fun p ts hts => (congrArg (K.test ρ) (h2 p ts hts)).trans ht) h

/-- A loop without a round. -/
theorem told_noLoop {p e b : Str} {vs : List Str} {is : List ι} (br : Bool) (hp : simplePat p = true) (he : simpleExpr e = true)
    (hi : K.iter ρ (code p) (code e) = [])
    (h : Told C syn L cfg (idle ι (List TT) Env) ρ (.text (bodyAt k (c!"$(for " ++ (p ++ (c!" in " ++ e))) br) b vs is)) :
    Told C syn L cfg K.anywhere ρ (.hole k (c!"$(for " ++ (p ++ (c!" in " ++ (e ++ (bodyOf br b ++ c!")"))))) [] []) := by
  obtain ⟨h1, h2⟩ := simple_expr C he
  obtain ⟨h3, h4, h5⟩ := simple_pat C hp
  refine .noLoop br h3 h4 h1 (fun p ts hts q us hus => ?_) h
  show K.iter ρ (wordsAll ts) (wordsAll us) = []
  rw [h5 p ts hts, h2 q us hus, hi]

/-- A loop with a separator and without a round. -/
theorem told_noJoined {p e q b : Str} {sep : Template.Sep} {vs : List Str} {is : List ι} (br : Bool) (hp : simplePat p = true)
    (he : simpleExpr e = true) (hi : K.iter ρ (code p) (code e) = []) (hs : IsSep q sep)
    (h : Told C syn L cfg (idle ι (List TT) Env) ρ
      (.text (bodyAt k (c!"$(for " ++ (p ++ (c!" in " ++ (e ++ (c!" join (" ++ (q ++ c!")")))))) br) b vs is)) :
    Told C syn L cfg K.anywhere ρ
      (.hole k (c!"$(for " ++ (p ++ (c!" in " ++ (e ++ (c!" join (" ++ (q ++ (c!")" ++ (bodyOf br b ++ c!")")))))))) [] []) := by
  obtain ⟨h1, h2⟩ := simple_expr C he
  obtain ⟨h3, h4, h5⟩ := simple_pat C hp
  refine .noJoined br h3 h4 h1 (fun p ts hts q us hus => ?_) hs h
  show K.iter ρ (wordsAll ts) (wordsAll us) = []
  rw [h5 p ts hts, h2 q us hus, hi]

theorem is_arm {p : Str} {g : Option Str} (hp : simpleArm p = true) (hg : ∀ x ∈ g, simpleGuard x = true) :
    IsArm C syn p g ∧ Always C p (fun ts => wordsAll ts = code p) ∧ Maybe C g (fun tg => tg.map wordsAll = g.map code) := by
  obtain ⟨h3, h4, h5⟩ := simple_arm C hp
  refine ⟨⟨h3, h4 _, fun x hx => ?_⟩, h5, ?_⟩
  · obtain ⟨h6, h7, -⟩ := simple_guard C (hg x hx)
    exact ⟨h6, h7⟩
  · cases g with
    | none => rfl
    | some x => exact fun q ts ht => congrArg some ((simple_guard C (hg x rfl)).2.2 q ts ht)

theorem cuts_of {m : Casing} {b rest : Str} (h : m.cuts b rest = true) : m.Cuts C b rest := by
  cases m with
  | braces comma => trivial
  | line comma =>
    simp only [Casing.cuts, Bool.and_eq_true] at h
    refine ⟨simple_line C h.1, ?_⟩
    cases comma
    · simpa using h.2
    · simpa using h.2

theorem maybe_mp {g : Option Str} {P Q : Option (List TT) → Prop} (h : ∀ tg, P tg → Q tg) (hP : Maybe C g P) : Maybe C g Q := by
  cases g with
  | none => exact h _ hP
  | some g => exact fun p ts ht => h _ (hP p ts ht)

theorem told_skip {e w p b rest : Str} {g : Option Str} {vs : List Str} {is : List ι} {res : Option (List Str × List ι)} (m : Casing)
    (hw : w.all blankChar = true) (he : simpleExpr e = true) (hp : simpleArm p = true) (hg : ∀ x ∈ g, simpleGuard x = true)
    (hm : m.cuts b rest = true) (hk : K.pick ρ (code e) (code p) (g.map code) = none)
    (h : Told C syn L cfg (idle ι (List TT) Env) ρ (.text (Doc.behind k (w ++ (p ++ (condOf g ++ m.before)))) b vs is))
    (h' : Told C syn L cfg K.anywhere ρ
      (.arms e (Doc.behind k (w ++ (p ++ (condOf g ++ (m.before ++ (b ++ m.after)))))) rest res)) :
    Told C syn L cfg K.anywhere ρ (.arms e k (w ++ (p ++ (condOf g ++ (m.before ++ (b ++ (m.after ++ rest)))))) res) := by
  obtain ⟨h1, h2⟩ := simple_expr C he
  obtain ⟨h3, h4, h5⟩ := is_arm (C := C) hp hg
  refine .skipArm m hw h3 (cuts_of hm) (fun p ts hts q us hus => maybe_mp (fun tg htg => ?_) h5) h h'
  show K.pick ρ (wordsAll ts) (wordsAll us) (tg.map wordsAll) = none
  rw [h2 p ts hts, h4 q us hus, htg, hk]

theorem told_take {e w p b rest : Str} {g : Option Str} {vs : List Str} {is : List ι} {res : Option (List Str × List ι)} (m : Casing)
    (ρ' : Env) (hw : w.all blankChar = true) (he : simpleExpr e = true) (hp : simpleArm p = true) (hg : ∀ x ∈ g, simpleGuard x = true)
    (hm : m.cuts b rest = true) (hk : K.pick ρ (code e) (code p) (g.map code) = some ρ')
    (h : Told C syn L cfg K.anywhere ρ' (.text (Doc.behind k (w ++ (p ++ (condOf g ++ m.before)))) b vs is))
    (h' : Told C syn L cfg (idle ι (List TT) Env) ρ
      (.arms e (Doc.behind k (w ++ (p ++ (condOf g ++ (m.before ++ (b ++ m.after)))))) rest res)) :
    Told C syn L cfg K.anywhere ρ (.arms e k (w ++ (p ++ (condOf g ++ (m.before ++ (b ++ (m.after ++ rest)))))) (some (vs, is))) := by
  obtain ⟨h1, h2⟩ := simple_expr C he
  obtain ⟨h3, h4, h5⟩ := is_arm (C := C) hp hg
  refine .takeArm m ρ' hw h3 (cuts_of hm) (fun p ts hts q us hus => maybe_mp (fun tg htg => ?_) h5) h h'
  show K.pick ρ (wordsAll ts) (wordsAll us) (tg.map wordsAll) = some ρ'
  rw [h2 p ts hts, h4 q us hus, htg, hk]

/-- Text, given by what it says. -/
theorem told_bound {H : Host ι (List TT) Env} {S : Syn} {src : Str} {vs : List Str} {is : List ι} (ls : List (Line ι)) (hf : fits k (seenBy C ls) = true)
    (hl : lastDepth [] ((Doc.pad k (seenBy C ls)).map shape) = 0) (hr : framed ls = true) (e1 : sourceOf ls = src) (e2 : Doc.linesOf cfg k (seenBy C ls) = vs)
    (e3 : Doc.importsOf ls = is) {ρ' : Env} (h : Told C S L cfg H ρ (.holes (holesOf k ls) ρ')) :
    Told C S L cfg H ρ (.text k src vs is) := by
  subst e1 e2 e3
  exact .text ls (fit_of hf) hl hr h

/-- Text without `let`. -/
theorem told_text {H : Host ι (List TT) Env} {S : Syn} {src : Str} {vs : List Str} {is : List ι} (ls : List (Line ι)) (hf : fits k (seenBy C ls) = true)
    (hl : lastDepth [] ((Doc.pad k (seenBy C ls)).map shape) = 0) (hr : framed ls = true) (e1 : sourceOf ls = src) (e2 : Doc.linesOf cfg k (seenBy C ls) = vs)
    (e3 : Doc.importsOf ls = is)
    (h : ∀ x ∈ holesOf k ls, Told C S L cfg H ρ (.hole x.1 x.2.1 x.2.2.1 x.2.2.2)) :
    Told C S L cfg H ρ (.text k src vs is) := by
  exact told_bound ls hf hl hr e1 e2 e3 (told_all h)

/-- `$(let p = e)`, and other holes behind it. -/
theorem told_let {p e : Str} {xs : List (Nat × Str × List Str × List ι)} {ρ' : Env} (ρ₁ : Env) (hp : simplePat p = true)
    (he : simpleExpr e = true) (hb : K.bind ρ (code p) (code e) = ρ₁) (h : Told C syn L cfg K.anywhere ρ₁ (.holes xs ρ')) :
    Told C syn L cfg K.anywhere ρ (.holes ((k, c!"$(let " ++ (p ++ (c!" = " ++ (e ++ c!")"))), [], []) :: xs) ρ') := by
  obtain ⟨h1, -, h2⟩ := simple_pat C hp
  obtain ⟨h3, h4⟩ := simple_expr C he
  obtain ⟨h5, h6⟩ := simple_let C hp he
  refine .bind ρ₁ h1 h5 h3.toReads h6 (fun p ts hts q us hus => ?_) h
  show K.bind ρ (wordsAll ts) (wordsAll us) = ρ₁
  rw [h2 p ts hts, h4 q us hus, hb]

end Rules

/-! ## Samples -/

namespace DocSample

/-- The variables: `x` has a value, and `on` is true or not. -/
structure Vars where
  x : Str
  on : Bool
  deriving DecidableEq

/-- `name` and `x` are texts, `xs` is a list of three numbers, `on` is a condition, `0` and `_` are patterns. -/
def host : Host Str Macro.Code Vars where
  value ρ e := if e = [c!"x"] then [.append (.literal (.box (ρ.x ++ c!".")))] else [.append (.literal (.box c!"main"))]
  scope _ _ := [.append (.literal (.box c!"out"))]
  iter ρ _ e := if e = [c!"xs"] then [⟨c!"7", ρ.on⟩, ⟨c!"8", ρ.on⟩, ⟨c!"9", ρ.on⟩] else []
  test ρ e := if (if e = [c!"!", c!"on"] then !ρ.on else ρ.on) then some ρ else Option.none
  pick ρ e p g := if (p = [c!"_"] ∨ (e = [c!"x"] ∧ p = [ρ.x])) ∧ (g.all fun g => if g = [c!"!", c!"on"] then !ρ.on else ρ.on) = true
    then some ρ else none
  bind ρ _ _ := ρ

theorem full : Text.Full host := by
  constructor
  · intro ρ e c hc
    unfold host at hc
    simp only at hc
    split at hc <;> cases List.mem_singleton.1 hc <;> simp [EmptyCall]
  · intro ρ e c hc
    cases List.mem_singleton.1 hc
    simp [EmptyCall]

/-- Characters of a text. -/
def chars (s : Str) : Line Str := s.map .char

/-- The name `x`. -/
def hx (v : Str) : Glyph Str := .hole c!"$x" [v ++ c!"."] []

/-- ` print($x);` -/
def round (v : Str) : List (Line Str) := [chars c!" print(" ++ hx v :: chars c!");"]

/-- A loop with a line break between the rounds. -/
def loop : Str := c!"$(for x in xs join ($['\\r']) => print($x);)"

/-- A condition with a text for both cases. -/
def cond : Str := c!"$(if !on { on } else { log(\"off\") })"

/-- The text
```
fn $name() {
    $(for x in xs join ($['\r']) => print($x);)

    let s = $(if !on { on } else { log("off") });
}
```
-/
def text : List (Line Str) := [
  chars c!"fn " ++ .hole c!"$name" [c!"main"] [] :: chars c!"() {",
  chars c!"    " ++ [.hole loop [c!"print(7.);", c!"print(8.);", c!"print(9.);"] []],
  [],
  chars c!"    let s = " ++ .hole cond [c!"log(\"off\")"] [] :: chars c!";",
  chars c!"}"]

def lang : Lang Str := TemplateSample.lang

def cfg : Config := TemplateSample.cfg

theorem x_told (C : Compiler) (k : Nat) (ρ : Vars) : Told C syn lang cfg host.anywhere ρ (.hole k c!"$x" [ρ.x ++ c!"."] []) :=
  told_name 'x' [] rfl (by decide) (by decide) (by decide) (.inl (C76_text lang cfg (.box (ρ.x ++ c!".")) (by simp [ItemStr.text]))) rfl

theorem loop_told (C : Compiler) (on : Bool) : Told C syn lang cfg host.anywhere (⟨[], on⟩ : Vars)
    (.hole 4 loop [c!"print(7.);", c!"print(8.);", c!"print(9.);"] []) := by
  refine told_joined (Env := Vars) (p := c!"x") (e := c!"xs") (q := c!"$['\\r']") (b := c!" print($x);") false
    [⟨c!"7", on⟩, ⟨c!"8", on⟩, ⟨c!"9", on⟩] (fun ρ' => [c!"print(" ++ (ρ'.x ++ c!".);")]) (fun _ => []) (by simp)
    (by decide +kernel) (by decide +kernel) (by cases on <;> rfl) .push (fun _ _ => by simp) ?_
  intro ρ' hρ
  have key : ∀ v, v = c!"7" ∨ v = c!"8" ∨ v = c!"9" → Told C syn lang cfg host.anywhere (⟨v, on⟩ : Vars)
      (.text 35 c!" print($x);" [c!"print(" ++ (v ++ c!".);")] []) := by
    intro v hv
    refine told_text (round v) ?_ ?_ ?_ ?_ ?_ ?_ ?_
    · cases C <;> rcases hv with rfl | rfl | rfl <;> decide +kernel
    · cases C <;> rcases hv with rfl | rfl | rfl <;> decide +kernel
    · cases C <;> rcases hv with rfl | rfl | rfl <;> decide +kernel
    · rfl
    · cases C <;> rcases hv with rfl | rfl | rfl <;> decide +kernel
    · rfl
    · intro x hx
      have : holesOf 35 (round v) = [(42, c!"$x", [v ++ c!"."], [])] := rfl
      rw [this] at hx
      rw [List.mem_singleton.1 hx]
      exact x_told _ _ ⟨v, on⟩
  simp only [List.mem_cons, List.not_mem_nil, or_false] at hρ
  rcases hρ with rfl | rfl | rfl
  · exact key _ (.inl rfl)
  · exact key _ (.inr (.inl rfl))
  · exact key _ (.inr (.inr rfl))

/-- The condition does not hold; its text is read nevertheless. -/
theorem cond_told (C : Compiler) : Told C syn lang cfg host.anywhere (⟨[], true⟩ : Vars) (.hole 12 cond [c!"log(\"off\")"] []) := by
  refine told_orElse (Env := Vars) (c := c!"!on") (b := c!" on ") (d := c!" log(\"off\") ") (vs' := [c!"on"]) (is' := [])
    (by decide +kernel) (by decide +kernel) ?_ ?_
  · exact told_text [chars c!" on "] (by cases C <;> decide +kernel) (by cases C <;> decide +kernel) (by decide +kernel) rfl (by cases C <;> decide +kernel) rfl (fun x hx => by cases hx)
  · refine told_text [chars c!" log(" ++ .hole c!"\"off\"" [c!"\"off\""] [] :: chars c!") "] (by cases C <;> decide +kernel)
      (by cases C <;> decide +kernel) (by decide +kernel) rfl (by cases C <;> decide +kernel) rfl ?_
    intro x hx
    cases List.mem_singleton.1 hx
    exact .string (s := c!"off") (v := c!"off") (by decide) (by decide) (C81_string lang cfg c!"off" (by decide +kernel))

/-- The holes of the text, with their columns. -/
theorem text_holes : holesOf 0 text = [(3, c!"$name", [c!"main"], []),
    (4, loop, [c!"print(7.);", c!"print(8.);", c!"print(9.);"], []), (12, cond, [c!"log(\"off\")"], [])] := by decide +kernel

/-- The text fits, and every hole stands for its lines. -/
theorem text_told (C : Compiler) : Fit 0 (seenBy C text) ∧
    Told C syn lang cfg host.anywhere (⟨[], true⟩ : Vars) (.holes (holesOf 0 text) ⟨[], true⟩) := by
  refine ⟨fit_of (by cases C <;> decide +kernel), ?_⟩
  rw [text_holes]
  refine told_all ?_
  intro x hx
  simp only [List.mem_cons, List.not_mem_nil, or_false] at hx
  rcases hx with rfl | rfl | rfl
  · exact told_name 'n' c!"ame" rfl (by decide) (by decide) (by decide +kernel) (.inl (C76_text lang cfg (.box c!"main") (by decide))) rfl
  · exact loop_told C true
  · exact cond_told C

/-- What the text is rendered as. -/
example : ∃ t, Invocation.make .nightly host ⟨[], true⟩ ⟨⟨7, 0, 90⟩, [c!"fn $name() {",
    c!"    $(for x in xs join ($['\\r']) => print($x);)", [], c!"    let s = $(if !on { on } else { log(\"off\") });", c!"}"]⟩ = some t ∧
    toVec lang cfg t.items = some [c!"fn main() {", c!"  print(7.);", c!"  print(8.);", c!"  print(9.);", [],
      c!"  let s = log(\"off\");", c!"}"] := by
  obtain ⟨cs, h1, -, -, h2, -⟩ := C81_quote .nightly host full ⟨[], true⟩ lang _ (fun _ => rfl) cfg 7 0 90 text (text_told .nightly).1 (text_told .nightly).2
    [c!"fn $name() {", c!"    $(for x in xs join ($['\\r']) => print($x);)", [],
      c!"    let s = $(if !on { on } else { log(\"off\") });", c!"}"] (by decide +kernel)
  exact ⟨_, h1, h2.trans (by decide +kernel)⟩

/-- What it is rendered as on a compiler without line numbers: the breaks are those of the separator. -/
example : ∃ t, Invocation.make .stable host ⟨[], true⟩ ⟨⟨7, 0, 90⟩, [c!"fn $name() {",
    c!"    $(for x in xs join ($['\\r']) => print($x);)", [], c!"    let s = $(if !on { on } else { log(\"off\") });", c!"}"]⟩ = some t ∧
    toVec lang cfg t.items = some [c!"fn main() { print(7.);", c!"print(8.);", c!"print(9.); let s = log(\"off\"); }"] := by
  obtain ⟨cs, h1, -, h2, -⟩ := C81_stable host full ⟨[], true⟩ lang _ (fun _ => rfl) cfg 7 0 90 text (text_told .stable).1 (text_told .stable).2
    [c!"fn $name() {", c!"    $(for x in xs join ($['\\r']) => print($x);)", [],
      c!"    let s = $(if !on { on } else { log(\"off\") });", c!"}"] (by decide +kernel)
  exact ⟨_, h1, h2.trans (by decide +kernel)⟩

/-! ### A condition with a variable -/

/-- Here `let Some(x) = first` holds, and gives `x` a value. -/
def letHost : Host Str Macro.Code Vars :=
  { host with test := fun ρ e => if e = code c!"let Some(x) = first" then some { ρ with x := c!"7" } else Option.none }

/-- The text `go($(if let Some(x) = first => $x))`: the value of `x` is the one the condition gives. -/
example : ∃ t, Invocation.make .nightly letHost ⟨c!"1", true⟩ ⟨⟨7, 0, 90⟩, [c!"go($(if let Some(x) = first => $x))"]⟩ = some t ∧
    toVec lang cfg t.items = some [c!"go(7.)"] := by
  obtain ⟨cs, h1, -, -, h2, -⟩ := C81_quote .nightly letHost full ⟨c!"1", true⟩ lang _ (fun _ => rfl) cfg 7 0 90
    [chars c!"go(" ++ .hole c!"$(if let Some(x) = first => $x)" [c!"7."] [] :: chars c!")"] (fit_of (by decide +kernel))
    (told_all fun x hm => by
      cases List.mem_singleton.1 hm
      refine told_if (Env := Vars) (c := c!"let Some(x) = first") (b := c!" $x") false ⟨c!"7", true⟩ (by decide +kernel) (by decide +kernel) ?_
      refine told_text [chars c!" " ++ [hx c!"7"]] (by decide +kernel) (by decide +kernel) (by decide +kernel) rfl (by decide +kernel) rfl ?_
      intro x hx
      cases List.mem_singleton.1 hx
      exact told_name 'x' [] rfl (by decide) (by decide) (by decide) (.inl (C76_text lang cfg (.box c!"7.") (by decide))) rfl)
    [c!"go($(if let Some(x) = first => $x))"] (by decide +kernel)
  exact ⟨_, h1, h2.trans (by decide +kernel)⟩

/-! ### Text in a hole on many lines -/

/-- The arms of a match. -/
def arms : Str := Macro.textOf [[], c!"    7 => {", c!"      seven($x)", c!"        .go()", c!"      seven($x)", c!"    },", c!"    _ => { $$ }", []]

/-- The text
```
do($(match x {
    7 => {
      seven($x)
        .go()
      seven($x)
    },
    _ => { $$ }
}))
```
-/
def nest : List (Line Str) := [chars c!"do(" ++ .hole (c!"$(match x {" ++ (arms ++ c!"})")) [c!"seven(7.)", c!"  .go()", c!"seven(7.)"] [] :: chars c!")"]

theorem nest_told : Told .nightly syn lang cfg host.anywhere (⟨c!"7", true⟩ : Vars)
    (.hole 3 (c!"$(match x {" ++ (arms ++ c!"})")) [c!"seven(7.)", c!"  .go()", c!"seven(7.)"] []) := by
  refine .select (e := c!"x") (b := arms) (simple_expr _ (by decide +kernel)).1 ?_
  refine told_take (p := c!"7") (w := c!"\n    ") (b := Macro.textOf [[], c!"      seven($x)", c!"        .go()", c!"      seven($x)", c!"    "])
    (rest := Macro.textOf [[], c!"    _ => { $$ }", []]) (res := some ([['$']], [])) (g := .none) (.braces true) ⟨c!"7", true⟩ (by decide) (by decide +kernel)
    (by decide +kernel) nofun rfl (by decide +kernel) ?_ ?_
  · refine told_text [[], chars c!"      seven(" ++ hx c!"7" :: chars c!")", chars c!"        .go()", chars c!"      seven(" ++ hx c!"7" :: chars c!")",
      chars c!"    "] (by decide +kernel) (by decide +kernel) (by decide +kernel) rfl (by decide +kernel) rfl ?_
    intro x hx
    have : x = (12, c!"$x", [c!"7."], []) := by
      have h : ∀ l : List (Nat × Str × List Str × List Str), l = [(12, c!"$x", [c!"7."], []), (12, c!"$x", [c!"7."], [])] → x ∈ l →
        x = (12, c!"$x", [c!"7."], []) := by
        rintro l rfl hx
        simpa using hx
      exact h _ (by decide +kernel) hx
    rw [this]
    exact x_told _ _ ⟨c!"7", true⟩
  · exact told_take (K := idle Str Macro.Code Vars) (p := c!"_") (w := c!"\n    ") (b := c!" $$ ") (rest := c!"\n") (res := none) (g := .none) (.braces false) ⟨c!"7", true⟩ (by decide)
      (by decide +kernel) (by decide +kernel) nofun rfl rfl
      (told_text [chars c!" " ++ .hole c!"$$" [['$']] [] :: chars c!" "] (by decide +kernel) (by decide +kernel) (by decide +kernel) rfl (by decide +kernel) rfl
        (fun x hx => by cases List.mem_singleton.1 hx; exact .dollar))
      (.noArms (by decide))

/-- What it is rendered as: the lines of the arm that is taken, with its own levels. -/
example : ∃ t, Invocation.make .nightly host ⟨c!"7", true⟩ ⟨⟨7, 0, 90⟩, [c!"do($(match x {", c!"    7 => {", c!"      seven($x)",
    c!"        .go()", c!"      seven($x)", c!"    },", c!"    _ => { $$ }", c!"}))"]⟩ = some t ∧
    toVec lang cfg t.items = some [c!"do(seven(7.)", c!"  .go()", c!"seven(7.))"] := by
  obtain ⟨cs, h1, -, -, h2, -⟩ := C81_quote .nightly host full ⟨c!"7", true⟩ lang _ (fun _ => rfl) cfg 7 0 90 nest (fit_of (by decide +kernel))
    (told_all fun x hx => by cases List.mem_singleton.1 hx; exact nest_told) [c!"do($(match x {", c!"    7 => {", c!"      seven($x)",
    c!"        .go()", c!"      seven($x)", c!"    },", c!"    _ => { $$ }", c!"}))"] (by decide +kernel)
  exact ⟨_, h1, h2.trans (by decide +kernel)⟩

/-! ### Arms without braces, and with conditions -/

/-- The arms of a match. -/
def lineArms : Str := Macro.textOf [[], c!"    7 if !on => no($x),", c!"    7 if on => seven(\"7, 7\", $x),",
  c!"    _ => { other }", c!"    8 => eight", []]

/-- The text
```
do($(match x {
    7 if !on => no($x),
    7 if on => seven("7, 7", $x),
    _ => { other }
    8 => eight
}))
```
-/
def lined : List (Line Str) := [chars c!"do(" ++ .hole (c!"$(match x {" ++ (lineArms ++ c!"})")) [c!"seven(\"7, 7\", 7.)"] [] :: chars c!")"]

theorem lined_told : Told .nightly syn lang cfg host.anywhere (⟨c!"7", true⟩ : Vars)
    (.hole 3 (c!"$(match x {" ++ (lineArms ++ c!"})")) [c!"seven(\"7, 7\", 7.)"] []) := by
  refine .select (e := c!"x") (b := lineArms) (simple_expr _ (by decide +kernel)).1 ?_
  refine told_skip (p := c!"7") (w := c!"\n    ") (g := some c!"!on") (b := c!" no($x)")
    (rest := Macro.textOf [[], c!"    7 if on => seven(\"7, 7\", $x),", c!"    _ => { other }", c!"    8 => eight", []])
    (.line true) (by decide) (by decide +kernel) (by decide +kernel) (by rintro x ⟨⟩; decide +kernel) (by decide +kernel) (by decide +kernel)
    (vs := [c!"no(x)"]) (is := []) ?_ ?_
  · refine told_text (ρ := (⟨c!"7", true⟩ : Vars)) [chars c!" no(" ++ .hole c!"$x" [c!"x"] [] :: chars c!")"]
      (by decide +kernel) (by decide +kernel) (by decide +kernel) rfl (by decide +kernel) rfl ?_
    intro x hx
    cases List.mem_singleton.1 hx
    exact told_name (K := idle Str Macro.Code Vars) 'x' [] rfl (by decide) (by decide) (by decide)
      (.inl (C76_text lang cfg (.static c!"x") (by decide))) rfl
  refine told_take (p := c!"7") (w := c!"\n    ") (g := some c!"on") (b := c!" seven(\"7, 7\", $x)")
    (rest := Macro.textOf [[], c!"    _ => { other }", c!"    8 => eight", []]) (res := some ([c!"other"], [])) (.line true) ⟨c!"7", true⟩ (by decide)
    (by decide +kernel) (by decide +kernel) (by rintro x ⟨⟩; decide +kernel) (by decide +kernel) (by decide +kernel) ?_ ?_
  · refine told_text [chars c!" seven(" ++ .hole c!"\"7, 7\"" [c!"\"7, 7\""] [] :: (chars c!", " ++ hx c!"7" :: chars c!")")]
      (by decide +kernel) (by decide +kernel) (by decide +kernel) rfl (by decide +kernel) rfl ?_
    intro x hx
    have h : x = (21, c!"\"7, 7\"", [c!"\"7, 7\""], []) ∨ x = (29, c!"$x", [c!"7."], []) := by
      have h : ∀ l : List (Nat × Str × List Str × List Str), l = [(21, c!"\"7, 7\"", [c!"\"7, 7\""], []), (29, c!"$x", [c!"7."], [])] → x ∈ l →
        x = (21, c!"\"7, 7\"", [c!"\"7, 7\""], []) ∨ x = (29, c!"$x", [c!"7."], []) := by
        rintro l rfl hx
        simpa using hx
      exact h _ (by decide +kernel) hx
    rcases h with rfl | rfl
    · exact .string (s := c!"7, 7") (v := c!"7, 7") (by decide) (by decide) (C81_string lang cfg c!"7, 7" (by decide +kernel))
    · exact x_told _ _ ⟨c!"7", true⟩
  refine told_take (K := idle Str Macro.Code Vars) (p := c!"_") (w := c!"\n    ") (g := .none) (b := c!" other ")
    (rest := Macro.textOf [[], c!"    8 => eight", []]) (res := some ([c!"eight"], [])) (.braces false) ⟨c!"7", true⟩ (by decide)
    (by decide +kernel) (by decide +kernel) nofun rfl rfl ?_ ?_
  · exact told_text [chars c!" other "] (by decide +kernel) (by decide +kernel) (by decide +kernel) rfl (by decide +kernel) rfl (fun x hx => by cases hx)
  refine told_take (K := idle Str Macro.Code Vars) (p := c!"8") (w := c!"\n    ") (g := .none) (b := c!" eight\n")
    (rest := []) (res := .none) (.line false) ⟨c!"7", true⟩ (by decide)
    (by decide +kernel) (by decide +kernel) nofun (by decide +kernel) rfl ?_ (.noArms (by decide))
  exact told_text [chars c!" eight", []] (by decide +kernel) (by decide +kernel) (by decide +kernel) rfl (by decide +kernel) rfl (fun x hx => by cases hx)

/-- What it is rendered as: the second arm, since the condition of the first does not hold. -/
example : ∃ t, Invocation.make .nightly host ⟨c!"7", true⟩ ⟨⟨7, 0, 90⟩, [c!"do($(match x {", c!"    7 if !on => no($x),",
    c!"    7 if on => seven(\"7, 7\", $x),", c!"    _ => { other }", c!"    8 => eight", c!"}))"]⟩ = some t ∧
    toVec lang cfg t.items = some [c!"do(seven(\"7, 7\", 7.))"] := by
  obtain ⟨cs, h1, -, -, h2, -⟩ := C81_quote .nightly host full ⟨c!"7", true⟩ lang _ (fun _ => rfl) cfg 7 0 90 lined (fit_of (by decide +kernel))
    (told_all fun x hx => by cases List.mem_singleton.1 hx; exact lined_told) [c!"do($(match x {", c!"    7 if !on => no($x),",
    c!"    7 if on => seven(\"7, 7\", $x),", c!"    _ => { other }", c!"    8 => eight", c!"}))"] (by decide +kernel)
  exact ⟨_, h1, h2.trans (by decide +kernel)⟩

/-! ### Holes that write nothing -/

/-- A condition that does not hold. -/
def off : Str := c!"$(if !on => off();)"

/-- A loop without a round. -/
def none : Str := c!"$(for y in ys { $x })"

/-- The text
```
fn $name() {
    $(if !on => off();)
    start($(for y in ys { $x }));

    $(if !on => off();)
    end();
    $(if !on => off();)
}
```
-/
def sparse : List (Line Str) := [
  chars c!"fn " ++ .hole c!"$name" [c!"main"] [] :: chars c!"() {",
  chars c!"    " ++ [.hole off [] []],
  chars c!"    start(" ++ .hole none [] [] :: chars c!");",
  [],
  chars c!"    " ++ [.hole off [] []],
  chars c!"    end();",
  chars c!"    " ++ [.hole off [] []],
  chars c!"}"]

theorem off_told : Told .nightly syn lang cfg host.anywhere (⟨[], true⟩ : Vars) (.hole 4 off [] []) :=
  told_ifNot (Env := Vars) (c := c!"!on") (b := c!" off();") (vs := [c!"off();"]) (is := []) false (by decide +kernel) (by decide +kernel)
    (told_text [chars c!" off();"] (by decide +kernel) (by decide +kernel) (by decide +kernel) rfl (by decide +kernel) rfl (fun x hx => by cases hx))

theorem none_told : Told .nightly syn lang cfg host.anywhere (⟨[], true⟩ : Vars) (.hole 10 none [] []) := by
  refine told_noLoop (Env := Vars) (p := c!"y") (e := c!"ys") (b := c!" $x ") (vs := [c!"x"]) (is := []) true (by decide +kernel)
    (by decide +kernel) (by decide +kernel)
    (told_text [chars c!" " ++ .hole c!"$x" [c!"x"] [] :: chars c!" "] (by decide +kernel) (by decide +kernel) (by decide +kernel) rfl
      (by decide +kernel) rfl (fun x hx => ?_))
  cases List.mem_singleton.1 hx
  exact told_name (K := idle Str Macro.Code Vars) 'x' [] rfl (by decide) (by decide) (by decide)
    (.inl (C76_text lang cfg (.static ['x']) (by decide))) rfl

theorem sparse_holes : holesOf 0 sparse = [(3, c!"$name", [c!"main"], []), (4, off, [], []), (10, none, [], []), (4, off, [], []),
    (4, off, [], [])] := by decide +kernel

/-- What it is rendered as: the lines without text are left out, and the empty line is there once. -/
example : ∃ t, Invocation.make .nightly host ⟨[], true⟩ ⟨⟨7, 0, 90⟩, [c!"fn $name() {", c!"    $(if !on => off();)",
    c!"    start($(for y in ys { $x }));", [], c!"    $(if !on => off();)", c!"    end();", c!"    $(if !on => off();)", c!"}"]⟩ = some t ∧
    toVec lang cfg t.items = some [c!"fn main() {", c!"  start();", [], c!"  end();", c!"}"] := by
  obtain ⟨cs, h1, -, -, h2, -⟩ := C81_quote .nightly host full ⟨[], true⟩ lang _ (fun _ => rfl) cfg 7 0 90 sparse (fit_of (by decide +kernel)) (by
      rw [sparse_holes]
      refine told_all ?_
      intro x hx
      simp only [List.mem_cons, List.not_mem_nil, or_false] at hx
      rcases hx with rfl | rfl | rfl | rfl | rfl
      · exact told_name 'n' c!"ame" rfl (by decide) (by decide) (by decide +kernel) (.inl (C76_text lang cfg (.box c!"main") (by decide))) rfl
      · exact off_told
      · exact none_told
      · exact off_told
      · exact off_told)
    [c!"fn $name() {", c!"    $(if !on => off();)", c!"    start($(for y in ys { $x }));", [], c!"    $(if !on => off();)", c!"    end();",
      c!"    $(if !on => off();)", c!"}"] (by decide +kernel)
  exact ⟨_, h1, h2.trans (by decide +kernel)⟩

/-! ### Variables -/

/-- Here `let x = e` gives `x` the text of `e`, with that of `x` before in place of `x` itself. -/
def bindHost : Host Str Macro.Code Vars :=
  { host with bind := fun ρ p e => if p = [c!"x"] then { ρ with x := (e.map fun w => if w = [ 'x' ] then ρ.x else w).flatten } else ρ }

/-- The text
```
$(let x = 5)
go($x);
$(let x = x + 1)

go($x, $(for x in xs join (, ) => y$(let x = x + 2)$x), $x);
```
-/
def bound : List (Line Str) := [
  [.hole c!"$(let x = 5)" [] []],
  chars c!"go(" ++ hx c!"5" :: chars c!");",
  [.hole c!"$(let x = x + 1)" [] []],
  [],
  chars c!"go(" ++ hx c!"5+1" :: (chars c!", " ++
    .hole c!"$(for x in xs join (, ) => y$(let x = x + 2)$x)" [c!"y7+2., y8+2., y9+2."] [] :: (chars c!", " ++ hx c!"5+1" :: chars c!");"))]

theorem bound_holes : holesOf 0 bound = [(0, c!"$(let x = 5)", [], []), (3, c!"$x", [c!"5."], []), (0, c!"$(let x = x + 1)", [], []),
    (3, c!"$x", [c!"5+1."], []), (7, c!"$(for x in xs join (, ) => y$(let x = x + 2)$x)", [c!"y7+2., y8+2., y9+2."], []),
    (56, c!"$x", [c!"5+1."], [])] := by decide +kernel

theorem bx_told (k : Nat) (ρ : Vars) : Told .nightly syn lang cfg bindHost.anywhere ρ (.hole k c!"$x" [ρ.x ++ c!"."] []) :=
  told_name 'x' [] rfl (by decide) (by decide) (by decide) (.inl (C76_text lang cfg (.box (ρ.x ++ c!".")) (by simp [ItemStr.text]))) rfl

theorem bound_told : Told .nightly syn lang cfg bindHost.anywhere (⟨[], true⟩ : Vars) (.holes (holesOf 0 bound) ⟨c!"5+1", true⟩) := by
  rw [bound_holes]
  refine told_let (p := c!"x") (e := c!"5") ⟨c!"5", true⟩ (by decide +kernel) (by decide +kernel) (by decide +kernel) ?_
  refine .nextHole (bx_told 3 ⟨c!"5", true⟩) ?_
  refine told_let (p := c!"x") (e := c!"x + 1") ⟨c!"5+1", true⟩ (by decide +kernel) (by decide +kernel) (by decide +kernel) ?_
  refine .nextHole (bx_told 3 ⟨c!"5+1", true⟩) (.nextHole ?_ (.nextHole (bx_told 56 ⟨c!"5+1", true⟩) .noHoles))
  refine told_joined (Env := Vars) (p := c!"x") (e := c!"xs") (q := c!", ") (b := c!" y$(let x = x + 2)$x") false
    [⟨c!"7", true⟩, ⟨c!"8", true⟩, ⟨c!"9", true⟩] (fun ρ' => [c!"y" ++ (ρ'.x ++ c!"+2.")]) (fun _ => []) (by simp)
    (by decide +kernel) (by decide +kernel) (by decide +kernel)
    (.text 0 1 (s := c!",") (by decide) (by decide) (by decide) (by decide) (by decide)) (fun _ _ => by simp) ?_
  intro ρ' hρ
  have key : ∀ v, v = c!"7" ∨ v = c!"8" ∨ v = c!"9" → Told .nightly syn lang cfg bindHost.anywhere (⟨v, true⟩ : Vars)
      (.text 33 c!" y$(let x = x + 2)$x" [c!"y" ++ (v ++ c!"+2.")] []) := by
    intro v hv
    have e1 : holesOf 33 [chars c!" y" ++ .hole c!"$(let x = x + 2)" [] [] :: [hx (v ++ c!"+2")]] =
      [(35, c!"$(let x = x + 2)", [], []), (51, c!"$x", [(v ++ c!"+2") ++ c!"."], [])] := rfl
    refine told_bound [chars c!" y" ++ .hole c!"$(let x = x + 2)" [] [] :: [hx (v ++ c!"+2")]] ?_ ?_ ?_ rfl ?_ rfl
      (ρ' := ⟨v ++ c!"+2", true⟩) ?_
    · rcases hv with rfl | rfl | rfl <;> decide +kernel
    · rcases hv with rfl | rfl | rfl <;> decide +kernel
    · rcases hv with rfl | rfl | rfl <;> decide +kernel
    · rcases hv with rfl | rfl | rfl <;> decide +kernel
    · rw [e1]
      refine told_let (p := c!"x") (e := c!"x + 2") ⟨v ++ c!"+2", true⟩ (by decide +kernel) (by decide +kernel) ?_
        (.nextHole (bx_told 51 ⟨v ++ c!"+2", true⟩) .noHoles)
      rcases hv with rfl | rfl | rfl <;> decide +kernel
  simp only [List.mem_cons, List.not_mem_nil, or_false] at hρ
  rcases hρ with rfl | rfl | rfl
  · exact key _ (.inl rfl)
  · exact key _ (.inr (.inl rfl))
  · exact key _ (.inr (.inr rfl))

/-- What it is rendered as: a variable is there up to the end of its text, and not behind the loop. -/
example : ∃ t, Invocation.make .nightly bindHost ⟨[], true⟩ ⟨⟨7, 0, 90⟩, [c!"$(let x = 5)", c!"go($x);", c!"$(let x = x + 1)", [],
    c!"go($x, $(for x in xs join (, ) => y$(let x = x + 2)$x), $x);"]⟩ = some t ∧
    toVec lang cfg t.items = some [c!"go(5.);", [], c!"go(5+1., y7+2., y8+2., y9+2., 5+1.);"] := by
  obtain ⟨cs, h1, -, -, h2, -⟩ := C81_quote .nightly bindHost full ⟨[], true⟩ lang _ (fun _ => rfl) cfg 7 0 90 bound (fit_of (by decide +kernel)) bound_told
    [c!"$(let x = 5)", c!"go($x);", c!"$(let x = x + 1)", [], c!"go($x, $(for x in xs join (, ) => y$(let x = x + 2)$x), $x);"] (by decide +kernel)
  exact ⟨_, h1, h2.trans (by decide +kernel)⟩

/-! ### Strings with code in them -/

def js : Lang Str := jsLang (fun s => [s])

/-- A string with a name, code, and other things in it. -/
def owed : Str := c!"$[str](Hi  $name: \"$x\" = $(sum($x, [1]))$$ $[const](\"\\t\")!)"

/-- The parts of the string. -/
def owedBits : List Stretch := [.text c!"Hi", .text c!" ", .text c!" ", .code [c!"name"], .text c!":", .text c!" ", .text c!"\"$x\"", .text c!" ", .text c!"=", .text c!" ",
  .code [c!"sum(7., [1])"], .text c!"$", .text c!" ", .text ['\t'], .text c!"!"]

theorem jx_told (C : Compiler) (k : Nat) (ρ : Vars) : Told C syn js cfg host.anywhere ρ (.hole k c!"$x" [ρ.x ++ c!"."] []) :=
  told_name 'x' [] rfl (by decide) (by decide) (by decide) (.inl (C76_text js cfg (.box (ρ.x ++ c!".")) (by simp [ItemStr.text]))) rfl

theorem owed_told (C : Compiler) : Told C syn js cfg host.anywhere (⟨c!"7", true⟩ : Vars) (.hole 8 owed (stringLines js owedBits) []) := by
  refine .str (b := c!"Hi  $name: \"$x\" = $(sum($x, [1]))$$ $[const](\"\\t\")!") owedBits (by decide) (by decide) (fun _ _ => rfl) ?_
  refine .wordPart (w := c!"Hi") (by simp) (by decide) (by decide) (by decide) (fun _ => ⟨rfl, rfl⟩) (.spacePart (.spacePart ?_))
  refine .namePart (n := c!"name") 'n' c!"ame" rfl (by decide) (by decide) (by decide) (by decide) ?_
  refine .punctPart (by decide) (by decide) (fun _ _ => rfl) (.spacePart ?_)
  refine .quotePart (s := c!"$x") (v := c!"$x") (by decide) (by decide) (fun _ => rfl) (.spacePart ?_)
  refine .punctPart (by decide) (by decide) (fun _ _ => rfl) (.spacePart ?_)
  refine .codePart (r := c!"$$ $[const](\"\\t\")!") (is := []) (chars c!"sum(" ++ hx c!"7" :: chars c!", [1])") (fit_of (by decide +kernel)) (by decide +kernel)
    (by decide +kernel) (by decide +kernel) (by decide +kernel) ?_ ?_
  · exact .nextHole (jx_told C _ ⟨c!"7", true⟩) .noHoles
  refine .dollarPart (.spacePart ?_)
  refine .constPart (s := c!"\\t") (v := ['\t']) (by decide) (by simp) ?_
  exact .punctPart (by decide) (by decide) (fun _ _ => rfl) .noParts

/-- What it is rendered as: the name and the code are in an evaluation each, and the rest is escaped. -/
example (C : Compiler) : ∃ t, Invocation.make C host ⟨c!"7", true⟩ ⟨⟨7, 0, 90⟩,
    [c!"let s = $[str](Hi  $name: \"$x\" = $(sum($x, [1]))$$ $[const](\"\\t\")!);"]⟩ = some t ∧
    toVec js cfg t.items = some [c!"let s = `Hi  ${name}: \\\"$x\\\" = ${sum(7., [1])}$ \\t!`;"] := by
  have hs : seenBy C [chars c!"let s = " ++ .hole owed (stringLines js owedBits) [] :: chars c!";"] =
    [chars c!"let s = " ++ .hole owed (stringLines js owedBits) [] :: chars c!";"] := by cases C <;> rfl
  obtain ⟨cs, h1, -, -, h2, -⟩ := C81_quote C host full ⟨c!"7", true⟩ js _ (fun _ => rfl) cfg 7 0 90
    [chars c!"let s = " ++ .hole owed (stringLines js owedBits) [] :: chars c!";"] (by rw [hs]; exact fit_of (by decide +kernel))
    (.nextHole (owed_told C) .noHoles) [c!"let s = $[str](Hi  $name: \"$x\" = $(sum($x, [1]))$$ $[const](\"\\t\")!);"] (by decide +kernel)
  rw [hs] at h2
  exact ⟨_, h1, h2.trans (by decide +kernel)⟩

end DocSample

end Genco.Props
