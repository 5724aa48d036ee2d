import Verif.Proofs.DocText

/-!
# Templates in source text: the holes
-/

set_option autoImplicit false

namespace Genco.Proofs.DocFile

open Genco Macro Spec Spec.Text Spec.MacroFile Spec.Doc Genco.Proofs Genco.Proofs.TextFile

variable {ι Env : Type}

/-! ## Strings -/

section

variable {C : Compiler}

theorem meant_eq (c : Char) : meant c = unescape c := by
  unfold unescape
  split <;> first
    | rfl
    | simp_all [meant, List.lookup]
      repeat rw [beq_false_of_ne ‹_›]

theorem lex_quote {ch : Bool} {s : Str} : ∀ {v : Str}, unquoted (if ch then '\'' else '"') s = some v →
    ∀ (p start : Place) (val txt r : Str),
    lexFrom C p (.quote start ch false val txt) (s ++ r) =
      lexFrom C (go p s) (.quote start ch false (v.reverse ++ val) (s.reverse ++ txt)) r := by
  fun_induction unquoted (if ch then '\'' else '"') s with
  | case1 => intro v h p start val txt r; cases h; rfl
  | case2 c s ih =>
    intro v h p start val txt r
    simp only [Option.bind_eq_bind, Option.bind_eq_some_iff] at h
    obtain ⟨x, hx, v, hv, h⟩ := h
    rw [meant_eq] at hx
    cases h
    have h1 : lexStep C p '\\' (c :: s ++ r) (.quote start ch false val txt) =
        some ([], .quote start ch true val ('\\' :: txt)) := by cases ch <;> rfl
    have h2 : lexStep C (p.next '\\') c (s ++ r) (.quote start ch true val ('\\' :: txt)) =
        some ([], .quote start ch false (x :: val) (c :: '\\' :: txt)) := by simp only [lexStep, hx]; rfl
    show lexFrom C p _ ('\\' :: (c :: s ++ r)) = _
    rw [lexFrom, h1]
    show Option.bind (lexFrom C (p.next '\\') _ (c :: (s ++ r))) _ = _
    rw [lexFrom, h2]
    simp only [Option.bind_eq_bind, Option.bind_some, List.nil_append]
    rw [ih hv]
    show _ = lexFrom C (go ((p.next '\\').next c) s) _ r
    simp
  | case3 c s hc h' => intro v h; cases h
  | case4 c s h' hc ih =>
    intro v h p start val txt r
    simp only [Option.bind_eq_bind, Option.bind_eq_some_iff] at h
    obtain ⟨v, hv, h⟩ := h
    cases h
    simp only [escaped, Bool.or_eq_true, beq_iff_eq, Bool.and_eq_true, not_or, not_and] at hc
    obtain ⟨⟨⟨c1, c2⟩, c3⟩, c4⟩ := hc
    have h1 : lexStep C p c (s ++ r) (.quote start ch false val txt) =
        some ([], .quote start ch false (c :: val) (c :: txt)) := by
      cases ch
      · simp only [lexStep, if_neg c2]
        rw [if_neg (by simpa using c1), if_neg c3]
      · simp only [lexStep, if_neg c2]
        obtain ⟨c5, c6⟩ := c4 rfl
        rw [if_neg (by simpa using c1), if_neg (by simp [c3, c5, c6])]
    show lexFrom C p _ (c :: (s ++ r)) = _
    rw [lexFrom, h1]
    simp only [Option.bind_eq_bind, Option.bind_some, List.nil_append]
    rw [ih hv]
    show _ = lexFrom C (go (p.next c) s) _ r
    simp

theorem readsAs_str {s v : Str} (h : unquoted '"' s = some v) (p : Place) :
    ReadsAs C p ('"' :: s ++ ['"']) (fun r => r.head?.any wordChar = false)
      [.str ⟨C.pos p, C.pos (go p ('"' :: s ++ ['"']))⟩ v ('"' :: s ++ ['"'])] := by
  refine ⟨_, grows_leaf _, fun r hr => ?_⟩
  unfold Runs
  have e1 : '"' :: s ++ ['"'] ++ r = '"' :: (s ++ ('"' :: r)) := by simp
  have h1 : lexStep C p '"' (s ++ ('"' :: r)) .none = some ([], .quote p false false [] ['"']) := rfl
  have hq := lex_quote (C := C) (ch := false) h (p.next '"') p [] ['"'] ('"' :: r)
  have h2 : lexStep C (go (p.next '"') s) '"' r (.quote p false false (v.reverse ++ []) (s.reverse ++ ['"'])) =
      some ([.leaf (.str ⟨C.pos p, C.pos ((go (p.next '"') s).next '"')⟩ (v.reverse ++ []).reverse
        ('"' :: (s.reverse ++ ['"'])).reverse)], .none) := by
    simp [lexStep, hr]
  rw [e1, lexFrom, h1]
  simp only [Option.bind_eq_bind, Option.bind_some, List.nil_append]
  rw [hq, lexFrom, h2]
  simp only [Option.bind_eq_bind, Option.bind_some]
  have e2 : go p ('"' :: s ++ ['"']) = (go (p.next '"') s).next '"' := by rw [go_append]; rfl
  rw [e2]
  simp
  cases lexFrom C ((go (p.next '"') s).next '"') .none r <;> rfl

theorem readsAs_char {s : Str} {v : Char} (h : unquoted '\'' s = some [v]) (p : Place) :
    ReadsAs C p ('\'' :: s ++ ['\'']) (fun r => r.head?.any wordChar = false)
      [.char ⟨C.pos p, C.pos (go p ('\'' :: s ++ ['\'']))⟩ v ('\'' :: s ++ ['\''])] := by
  refine ⟨_, grows_leaf _, fun r hr => ?_⟩
  unfold Runs
  have e1 : '\'' :: s ++ ['\''] ++ r = '\'' :: (s ++ ('\'' :: r)) := by simp
  have h1 : lexStep C p '\'' (s ++ ('\'' :: r)) .none = some ([], .quote p true false [] ['\'']) := rfl
  have hq := lex_quote (C := C) (ch := true) h (p.next '\'') p [] ['\''] ('\'' :: r)
  have h2 : lexStep C (go (p.next '\'') s) '\'' r (.quote p true false ([v].reverse ++ []) (s.reverse ++ ['\''])) =
      some ([.leaf (.char ⟨C.pos p, C.pos ((go (p.next '\'') s).next '\'')⟩ v
        ('\'' :: (s.reverse ++ ['\''])).reverse)], .none) := by
    simp [lexStep, hr]
  rw [e1, lexFrom, h1]
  simp only [Option.bind_eq_bind, Option.bind_some, List.nil_append]
  rw [hq, lexFrom, h2]
  simp only [Option.bind_eq_bind, Option.bind_some]
  have e2 : go p ('\'' :: s ++ ['\'']) = (go (p.next '\'') s).next '\'' := by rw [go_append]; rfl
  rw [e2]
  simp
  cases lexFrom C ((go (p.next '\'') s).next '\'') .none r <;> rfl

/-! ## Words and arrows -/

theorem punct_name {c : Char} (h : nameChar c = true) : punctChar c = false := by
  cases hp : punctChar c with
  | false => rfl
  | true =>
    have hm : c ∈ c!"~!@#$%^&*-=+|;:,<.>/?'" := by simpa [punctChar] using hp
    have : ∀ d ∈ c!"~!@#$%^&*-=+|;:,<.>/?'", nameChar d = false := by decide
    rw [this c hm] at h
    cases h

/-- A keyword and a space. -/
theorem readsAs_key (w : Str) (hw : w.all wordChar = true) (hd : (w.head?.all Char.isDigit) = false) (P : Str → Prop) (p : Place) :
    ∃ cur, ReadsAs C p (w ++ [' ']) P [.ident cur w] := by
  cases w with
  | nil => cases hd
  | cons c w =>
    rw [List.all_cons, Bool.and_eq_true] at hw
    refine ⟨_, ((readsAs_name hw.1 hw.2 hd).append (readsAs_space _ P) (fun r _ => ?_)).weaken (fun _ h => h)⟩
    exact (halt_space r).breaks

/-- `=>` behind a space. -/
theorem readsAs_arrow {b : Str} {ts : List TT} (p : Place) (h : ReadsAs C (go p c!" =>") b Halt ts) :
    ∃ x y j, ReadsAs C p (c!" =>" ++ b) Halt (arrow x y j ++ ts) := by
  have h1 := readsAs_punct (C := C) (p := p.next ' ') (c := '=') (by decide) (by decide) (by decide) true
  have h2 := readsAs_punct (C := C) (p := (p.next ' ').next '=') (c := '>') (by decide) (by decide) (by decide) (jointOf b)
  have h3 := h2.append (b := b) (Q := Halt) h (fun r hr => joint_append hr b)
  have h4 := h1.append h3 (fun r _ => rfl)
  exact ⟨_, _, jointOf b, (readsAs_space p (fun _ => True)).append h4 (fun _ _ => trivial)⟩

/-- Braces behind a space. -/
theorem readsAs_braces {b : Str} {ts : List TT} (p : Place) (h : ReadsAs C (go p c!" {") b Halt ts) (P : Str → Prop) :
    ∃ cur, ReadsAs C p (c!" {" ++ (b ++ c!"}")) P [.group cur .brace ts] := by
  have h1 := ReadsAs.group (p := p.next ' ') .brace h (fun r => halt_brace r)
  exact ⟨_, ((readsAs_space p (fun _ => True)).append h1 (fun _ _ => trivial)).weaken (fun _ _ => trivial)⟩

theorem readsAs_unique {p : Place} {t : Str} {P Q : Str → Prop} {ts us : List TT} (h : ReadsAs C p t P ts)
    (h' : ReadsAs C p t Q us) (hP : P []) (hQ : Q []) : ts = us := by
  have := h.lex hP
  rw [h'.lex hQ] at this
  exact (Option.some.inj this).symm

end

theorem means_unique {S : Syn} {ts : List TT} {ns ms : List (Node (List TT))} (h : Means S (.nodes ts ns))
    (h' : Means S (.nodes ts ms)) : ns = ms := by
  obtain ⟨n, hn⟩ := (parses_iff S ts ns).2 h
  obtain ⟨m, hm⟩ := (parses_iff S ts ms).2 h'
  have h1 := all_mono S ts (Nat.le_max_left n m) _ hn
  have h2 := all_mono S ts (Nat.le_max_right n m) _ hm
  rw [h1] at h2
  exact Option.some.inj h2

/-! ## Holes that are no text -/

theorem flatten_stands {E : Type} {n : Node E} {cur : Cur} (h : Template.standsAt n = some cur) :
    Template.flattenNode n = [n] := by
  cases n <;> first | rfl | cases h

theorem fills_literal {E : Type} (H : Host ι E Env) (ρ : Env) {s : Str} (h : s ≠ []) :
    Template.Fills H ρ (fun cur => .literal cur s) [.append (.literal (.static s))] := by
  obtain ⟨c, s, rfl⟩ := List.exists_cons_of_ne_nil h
  exact ⟨fun _ => rfl, fun _ => rfl, fun _ => ⟨false, [.call (.append (.literal (.static (c :: s))))], rfl, rfl, rfl⟩⟩

theorem fills_escape {E : Type} (H : Host ι E Env) (ρ : Env) :
    Template.Fills H ρ (fun cur => .escape cur) [.append (.literal (.static ['$']))] :=
  ⟨fun _ => rfl, fun _ => rfl, fun _ => ⟨false, [.call (.append (.literal (.static ['$'])))], rfl, rfl, rfl⟩⟩

theorem fills_quoted {E : Type} (H : Host ι E Env) (ρ : Env) {s : Str} (h : s ≠ []) :
    Template.Fills H ρ (fun cur => .quoted cur s)
      [.append (.openQuote false), .append (.literal (.static s)), .append .closeQuote] :=
  ⟨fun _ => rfl, fun _ => by simp [emptyTextNode, h], fun _ => ⟨false,
    [.call (.append (.openQuote false)), .call (.append (.literal (.static s))), .call (.append .closeQuote)], rfl, rfl, rfl⟩⟩

theorem fills_scope {E : Type} (H : Host ι E Env) (ρ : Env) (e : E) :
    Template.Fills H ρ (fun cur => .scope cur true e) (H.scope ρ e) :=
  ⟨fun _ => rfl, fun _ => rfl, fun _ => ⟨false, [.scope true e], rfl, by simp [runBlock, runStmt], rfl⟩⟩

/-- No call that inserts an empty text. -/
structure Full {E : Type} (H : Host ι E Env) : Prop where
  value : ∀ ρ e, ∀ c ∈ H.value ρ e, ¬ EmptyCall c
  scope : ∀ ρ e, ∀ c ∈ H.scope ρ e, ¬ EmptyCall c

theorem full_idle (E : Type) : Full (idle ι E Env) := by
  constructor <;>
  · intro ρ e c hc
    cases List.mem_singleton.1 hc
    simp [EmptyCall]

section

variable {C : Compiler} {S : Syn} {L : Lang ι} {cfg : Config} {H : Host ι (List TT) Env} {ρ : Env}

theorem stood_paren (hH : Full H) {p : Place} {t : Str} {ts : List TT} {n : Cur → Node (List TT)} {cs vs is}
    (hr : ReadsAs C (go p c!"$(") t Halt ts) (hm : ∀ cur, Means S (.inside cur ts (n cur)))
    (hf : Template.Fills H ρ n cs) (hB : Makes L cfg cs vs) (hi : inserted cs = is) :
    Stood C S L cfg H ρ p ('$' :: '(' :: (t ++ [')'])) vs is ρ := by
  refine ⟨⟨_, _, rfl, .inl rfl⟩, n _, cs, acts_fills hH.value hH.scope hf _, flatten_stands (hf.stands _), hB, hi,
    fun j => ?_⟩
  have h1 := readsAs_punct (C := C) (p := p) (c := '$') (by decide) (by decide) (by decide) false
  have h2 := ReadsAs.group (C := C) (p := p.next '$') .parenthesis hr (fun r => halt_close r)
  exact ⟨_, (h1.append h2 (fun r _ => rfl)).weaken (fun _ _ => trivial), fun us ms h => .paren (hm _) h⟩

theorem stood_name (hH : Full H) {p : Place} {c : Char} {r : Str} {cs vs is} (hn : (c :: r).all nameChar = true)
    (hd : c.isDigit = false) (hk : S.keyword (c :: r) = false) (hc : ∀ cur, H.value ρ [.ident cur (c :: r)] = cs)
    (hB : Makes L cfg cs vs) (hi : inserted cs = is) : Stood C S L cfg H ρ p ('$' :: c :: r) vs is ρ := by
  have hn' := hn
  rw [List.all_cons, Bool.and_eq_true] at hn
  have h2 := readsAs_name (C := C) (p := p.next '$') (c := c) (w := r) hn.1 hn.2 hd
  have hf := fills_eval H ρ [TT.ident ⟨C.pos (p.next '$'), C.pos (go (p.next '$') (c :: r))⟩ (c :: r)]
  rw [hc] at hf
  refine ⟨⟨_, _, rfl, .inl rfl⟩, _, cs, acts_fills hH.value hH.scope hf _, rfl, hB, hi, fun j => ?_⟩
  have h1 := readsAs_punct (C := C) (p := p) (c := '$') (by decide) (by decide) (by decide) false
  refine ⟨_, (h1.append h2 (fun r' _ => ?_)).weaken (fun r' hr => ?_), fun us ms h => .name hk h⟩
  · show jointOf (c :: (r ++ r')) = false
    unfold jointOf
    rw [List.head?_cons, Option.any_some, punct_name hn.1, Bool.and_false]
  · intro b hb
    have hl : ∃ z, ('$' :: c :: r).getLast? = some z ∧ nameChar z = true := by
      refine ⟨(c :: r).getLast (by simp), ?_, List.all_eq_true.1 hn' _ (List.getLast_mem _)⟩
      rw [List.getLast?_cons_cons, List.getLast?_eq_getLast_of_ne_nil]
    obtain ⟨z, z1, z2⟩ := hl
    have := hr.1 z b z1 hb
    simp only [sticks, z2, Bool.true_and, Bool.or_eq_false_iff] at this
    refine ⟨this.1.1.1.1, ?_, ?_, ?_⟩ <;> (rintro rfl; simp at this)

theorem stood_dollar (hH : Full H) {p : Place} : Stood C S L cfg H ρ p c!"$$" [['$']] [] ρ := by
  refine ⟨⟨_, _, rfl, .inl rfl⟩, .escape _, _, acts_fills hH.value hH.scope (fills_escape H ρ) _, rfl,
    makes_word L cfg (by simp), rfl, fun j => ?_⟩
  have h1 := readsAs_punct (C := C) (p := p) (c := '$') (by decide) (by decide) (by decide) true
  have h2 := readsAs_punct (C := C) (p := p.next '$') (c := '$') (by decide) (by decide) (by decide) j
  exact ⟨_, (h1.append h2 (fun r _ => rfl)).weaken (fun _ hr => hr.2), fun us ms h => .escape h⟩

/-- No word sticks to a quotation mark. -/
theorem quote_ends {q : Char} {s r : Str} (hq : q = '"' ∨ q = '\'')
    (hr : ∀ a b, (q :: s ++ [q]).getLast? = some a → r.head? = some b → sticks a b = false) : r.head?.any wordChar = false := by
  cases r with
  | nil => rfl
  | cons b r =>
    have := hr q b (by rw [List.getLast?_append_of_ne_nil _ (by simp)]; rfl) rfl
    show wordChar b = false
    rw [wordChar_eq]
    rcases hq with rfl | rfl
    · simp [sticks] at this; exact this.2
    · simp [sticks] at this; exact this.2

theorem stood_char {p : Place} {s : Str} {v : Char} (h : unquoted '\'' s = some [v]) :
    Stood C S L cfg H ρ p ('\'' :: s ++ ['\'']) [['\''] ++ s ++ ['\'']] [] ρ := by
  refine ⟨⟨_, _, rfl, .inr (.inr rfl)⟩, .tree _ _, _, acts_word H ρ _ (s := '\'' :: s ++ ['\'']) (by simp), rfl,
    makes_word L cfg (by simp), rfl, fun j => ?_⟩
  exact ⟨_, (readsAs_char h p).weaken (fun _ hr => quote_ends (.inr rfl) hr.1), fun us ms h => Means.word rfl h⟩

theorem stood_string (hH : Full H) {p : Place} {s v : Str} {vs : List Str} (h : unquoted '"' s = some v) (hv : v ≠ [])
    (hB : Template.BlockOf L cfg [.append (.openQuote false), .append (.literal (.static v)), .append .closeQuote] vs) :
    Stood C S L cfg H ρ p ('"' :: s ++ ['"']) vs [] ρ := by
  refine ⟨⟨_, _, rfl, .inr (.inl rfl)⟩, .quoted _ _, _, acts_fills hH.value hH.scope (fills_quoted H ρ hv) _, rfl, .inl hB, rfl,
    fun j => ?_⟩
  exact ⟨_, (readsAs_str h p).weaken (fun _ hr => quote_ends (.inl rfl) hr.1), fun us ms h => Means.quoted h⟩

end

end Genco.Proofs.DocFile
