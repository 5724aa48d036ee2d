import Verif.Proofs.DocString
import Verif.Proofs.DocSep
import Verif.Proofs.DocSeen

/-!
# Templates in source text: the parts of a string
-/

set_option autoImplicit false

namespace Genco.Proofs.DocFile

open Genco Macro Spec Spec.Text Spec.MacroFile Spec.Doc Genco.Proofs Genco.Proofs.TextFile

variable {ι Env : Type}

/-! ## Where tokens are -/

section

variable {C : Compiler}

/-- The token lies between such places. -/
def rawOk (C : Compiler) (P : Place → Prop) : Raw → Prop
  | .leaf t => ∃ x y, P x ∧ P y ∧ t.cur = ⟨C.pos x, C.pos y⟩
  | .opening x _ => P x
  | .closing y _ => P y

def pendOk (P : Place → Prop) : Pending → Prop
  | .none => True
  | .word x _ => P x
  | .quote x _ _ _ _ => P x
  | .comment _ => True

theorem word_ok {P : Place → Prop} {x y : Place} {text : Str} {w : Raw} (hx : P x) (hy : P y)
    (h : wordToken C x y text = some w) : rawOk C P w := by
  unfold wordToken at h
  split at h
  · split at h
    · split at h
      · cases h; exact ⟨x, y, hx, hy, rfl⟩
      · cases h
    · cases h; exact ⟨x, y, hx, hy, rfl⟩
  · cases h

theorem fresh_ok {P : Place → Prop} {p : Place} {c : Char} {s : Str} {o : List Raw × Pending} (hp : P p) (hq : P (p.next c))
    (h : lexFresh C p c s = some o) : (∀ w ∈ o.1, rawOk C P w) ∧ pendOk P o.2 := by
  unfold lexFresh at h
  split at h
  · cases h; exact ⟨by simp, trivial⟩
  split at h
  · cases h; exact ⟨by simp, hp⟩
  split at h
  · cases h; exact ⟨by simp, hp⟩
  split at h
  · cases h; exact ⟨by simp, hp⟩
  split at h
  · split at h
    · cases h; exact ⟨by simp, trivial⟩
    · cases h
  split at h
  · cases h; exact ⟨by simpa [rawOk] using hp, trivial⟩
  · cases h; exact ⟨by simpa [rawOk] using hq, trivial⟩
  · split at h
    · cases h
      refine ⟨fun w hw => ?_, trivial⟩
      cases List.mem_singleton.1 hw
      exact ⟨p, p.next c, hp, hq, rfl⟩
    · cases h

theorem step_ok {P : Place → Prop} {p : Place} {c : Char} {s : Str} {pend : Pending} {o : List Raw × Pending} (hp : P p)
    (hq : P (p.next c)) (he : pendOk P pend) (h : lexStep C p c s pend = some o) : (∀ w ∈ o.1, rawOk C P w) ∧ pendOk P o.2 := by
  cases pend with
  | none => exact fresh_ok hp hq h
  | word start text =>
    rw [lexStep] at h
    split at h
    · cases h; exact ⟨by simp, he⟩
    split at h
    · cases h
    · simp only [Option.bind_eq_bind, Option.bind_eq_some_iff, Option.some.injEq] at h
      obtain ⟨w, h1, o', h2, rfl⟩ := h
      obtain ⟨f1, f2⟩ := fresh_ok (C := C) hp hq h2
      refine ⟨fun w' hw => ?_, f2⟩
      rcases List.mem_cons.1 hw with rfl | hw
      · exact word_ok he hp h1
      · exact f1 _ hw
  | quote start ch esc value text =>
    cases ch <;> cases esc <;> simp only [lexStep] at h
    · split at h
      · cases h; exact ⟨by simp, he⟩
      split at h
      · split at h
        · cases h
        · cases h
          refine ⟨fun w hw => ?_, trivial⟩
          cases List.mem_singleton.1 hw
          exact ⟨start, p.next c, he, hq, rfl⟩
      split at h
      · cases h
      · cases h; exact ⟨by simp, he⟩
    · simp only [Option.map_eq_some_iff] at h
      obtain ⟨v, -, rfl⟩ := h
      exact ⟨by simp, he⟩
    · split at h
      · cases h; exact ⟨by simp, he⟩
      split at h
      · split at h
        · cases h
        split at h
        · cases h
          refine ⟨fun w hw => ?_, trivial⟩
          cases List.mem_singleton.1 hw
          exact ⟨start, p.next c, he, hq, rfl⟩
        · cases h
      split at h
      · cases h
      · cases h; exact ⟨by simp, he⟩
    · simp only [Option.map_eq_some_iff] at h
      obtain ⟨v, -, rfl⟩ := h
      exact ⟨by simp, he⟩
  | comment n =>
    rw [lexStep] at h
    split at h
    · cases h; exact ⟨by simp, trivial⟩
    split at h
    · cases h
    · cases h; exact ⟨by simp, trivial⟩

theorem lexFrom_ok {P : Place → Prop} (s : Str) : ∀ {p : Place} {pend : Pending} {rs : List Raw},
    (∀ a b, s = a ++ b → P (go p a)) → pendOk P pend → lexFrom C p pend s = some rs → ∀ w ∈ rs, rawOk C P w := by
  induction s with
  | nil =>
    intro p pend rs hP he h w hw
    have hp : P p := hP [] [] rfl
    cases pend with
    | none => cases h; cases hw
    | word start text =>
      simp only [lexFrom, Option.map_eq_some_iff] at h
      obtain ⟨v, hv, rfl⟩ := h
      cases List.mem_singleton.1 hw
      exact word_ok he hp hv
    | quote => cases h
    | comment => cases h; cases hw
  | cons c s ih =>
    intro p pend rs hP he h w hw
    rw [lexFrom] at h
    simp only [Option.bind_eq_bind, Option.bind_eq_some_iff, Option.some.injEq] at h
    obtain ⟨o, h1, rest, h2, rfl⟩ := h
    obtain ⟨k1, k2⟩ := step_ok (C := C) (hP [] (c :: s) rfl) (hP [c] s rfl) he h1
    rcases List.mem_append.1 hw with hw | hw
    · exact k1 w hw
    · exact ih (fun a b e => hP (c :: a) b (by rw [e]; rfl)) k2 h2 w hw

theorem trees_ok {P : Place → Prop} (rs : List Raw) : ∀ {st : List (Place × Delimiter × List TT)} {acc ts : List TT},
    (∀ w ∈ rs, rawOk C P w) → (∀ x ∈ st, P x.1 ∧ ∀ t ∈ x.2.2, rawOk C P (.leaf t)) → (∀ t ∈ acc, rawOk C P (.leaf t)) →
    trees C st acc rs = some ts → ∀ t ∈ ts, rawOk C P (.leaf t) := by
  induction rs with
  | nil =>
    intro st acc ts _ _ ha h t ht
    rw [trees] at h
    split at h
    · cases h; exact ha t (by simpa using ht)
    · cases h
  | cons x rs ih =>
    intro st acc ts hr hs ha h
    cases x with
    | leaf t =>
      refine ih (fun w hw => hr w (by simp [hw])) hs (fun u hu => ?_) h
      rcases List.mem_cons.1 hu with rfl | hu
      · exact hr _ (by simp)
      · exact ha u hu
    | opening p d =>
      refine ih (fun w hw => hr w (by simp [hw])) (fun u hu => ?_) (by simp) h
      rcases List.mem_cons.1 hu with rfl | hu
      · exact ⟨hr (.opening p d) (by simp), ha⟩
      · exact hs u hu
    | closing q d =>
      cases st with
      | nil => cases h
      | cons a st =>
        obtain ⟨p, d', outer⟩ := a
        rw [trees] at h
        split at h
        · refine ih (fun w hw => hr w (by simp [hw])) (fun u hu => hs u (by simp [hu])) (fun u hu => ?_) h
          rcases List.mem_cons.1 hu with rfl | hu
          · exact ⟨p, q, (hs (p, d', outer) (by simp)).1, hr (.closing q d) (by simp), rfl⟩
          · exact (hs (p, d', outer) (by simp)).2 u hu
        · cases h

theorem pos_line (s : Str) : ∀ p : Place, '\n' ∉ s → ∃ n, C.pos (go p s) = ⟨(C.pos p).line, (C.pos p).column + n⟩ := by
  induction s with
  | nil => intro p _; exact ⟨0, rfl⟩
  | cons c s ih =>
    intro p h
    have hc : c ≠ '\n' := fun e => h (by simp [e])
    obtain ⟨n, hn⟩ := ih (p.next c) (fun e => h (by simp [e]))
    show ∃ n, C.pos (go (p.next c) s) = _
    rw [hn]
    cases C with
    | nightly => exact ⟨1 + n, by simp [Compiler.pos, Place.next, hc]; omega⟩
    | stable => exact ⟨c.utf8Size + n, by simp [Compiler.pos, Place.next, hc]; omega⟩

/-- Tokens on a line are on the line. -/
theorem lex_within {p : Place} {s : Str} {ts : List TT} (h : lex C p s = some ts) (hn : '\n' ∉ s) : ∀ t ∈ ts,
    ((t.cur.start.line = (C.pos p).line ∧ (C.pos p).column ≤ t.cur.start.column ∧ t.cur.start.column ≤ (C.pos (go p s)).column) ∧
    t.cur.stop.line = (C.pos p).line ∧ t.cur.stop.column ≤ (C.pos (go p s)).column) := by
  unfold lex at h
  simp only [Option.bind_eq_bind, Option.bind_eq_some_iff] at h
  obtain ⟨rs, h1, h2⟩ := h
  intro t ht
  let P : Place → Prop := fun q => (C.pos q).line = (C.pos p).line ∧ (C.pos p).column ≤ (C.pos q).column ∧
    (C.pos q).column ≤ (C.pos (go p s)).column
  have hP : ∀ a b, s = a ++ b → P (go p a) := by
    intro a b e
    subst e
    obtain ⟨n, h1⟩ := pos_line (C := C) a p (fun h => hn (by simp [h]))
    obtain ⟨m, h2⟩ := pos_line (C := C) b (go p a) (fun h => hn (by simp [h]))
    refine ⟨by rw [h1], by rw [h1]; simp, by rw [go_append, h2]; simp⟩
  obtain ⟨x, y, hx, hy, e⟩ := trees_ok (C := C) rs (lexFrom_ok (C := C) (P := P) (pend := .none) s hP trivial h1) (by simp) (by simp) h2 t ht
  rw [e]
  exact ⟨⟨hx.1, hx.2.1, hx.2.2⟩, hy.1, hy.2.2⟩

end

/-! ## Pieces without brackets -/

section

variable {E : Type} (H : Host ι E Env)

theorem stepsOf_append (a b : List (Node E)) : stepsOf H (a ++ b) =
    (stepsOf H a).bind (fun x => (stepsOf H b).map (x ++ ·)) := by
  induction a with
  | nil =>
    rw [List.nil_append, stepsOf]
    simp
  | cons n a ih =>
    rw [List.cons_append, stepsOf, stepsOf, ih]
    cases stepOf H n with
    | none => rfl
    | some x =>
      cases stepsOf H a with
      | none => rfl
      | some y => cases stepsOf H b <;> simp

mutual

theorem stepsOf_flatten : ∀ ns : List (Node E), stepsOf H (Template.flatten ns) = stepsOf H ns
  | [] => rfl
  | n :: ns => by
    rw [Template.flatten, stepsOf_append, stepsOf_flattenNode n, stepsOf_flatten ns, stepsOf]
    cases stepOf H n with
    | none => rfl
    | some x => cases stepsOf H ns <;> rfl

theorem stepsOf_flattenNode : ∀ n : Node E, stepsOf H (Template.flattenNode n) = stepOf H n
  | .group cur d content => by
    rw [Template.flattenNode, List.cons_append, stepsOf, stepsOf_append, stepsOf_flatten content, stepOf]
    cases h : stepsOf H content <;> cases d <;> simp [h, stepsOf, stepOf, Template.openChar, Template.closeChar]
  | .tree cur s => by simp [Template.flattenNode, stepsOf, stepOf]
  | .escape cur => by simp [Template.flattenNode, stepsOf, stepOf]
  | .str cur paren ps => by rw [Template.flattenNode, stepsOf, stepsOf]; cases stepOf H (.str cur paren ps) <;> simp
  | .control cur k => by simp [Template.flattenNode, stepsOf, stepOf]
  | .quoted cur s => by simp [Template.flattenNode, stepsOf, stepOf]
  | .literal cur s => by simp [Template.flattenNode, stepsOf, stepOf]
  | .eval cur x => by simp [Template.flattenNode, stepsOf, stepOf]
  | .scope cur b c => by simp [Template.flattenNode, stepsOf, stepOf]
  | .loop cur p i b => by rw [Template.flattenNode, stepsOf, stepsOf]; cases stepOf H (.loop cur p i b) <;> simp
  | .joined cur p i paren s b => by
    rw [Template.flattenNode, stepsOf, stepsOf]; cases stepOf H (.joined cur p i paren s b) <;> simp
  | .ifThen cur c t => by rw [Template.flattenNode, stepsOf, stepsOf]; cases stepOf H (.ifThen cur c t) <;> simp
  | .ifElse cur c t f => by rw [Template.flattenNode, stepsOf, stepsOf]; cases stepOf H (.ifElse cur c t f) <;> simp
  | .select cur x as => by rw [Template.flattenNode, stepsOf, stepsOf]; cases stepOf H (.select cur x as) <;> simp
  | .bind cur p x => by simp [Template.flattenNode, stepsOf, stepOf]

end

end

/-! ## Parts -/

theorem perform_text (s : Str) (ρ : Env) : perform (ι := ι) ρ (Step.text s) = s.map Mark.char := by
  induction s with
  | nil => rfl
  | cons c s ih => exact congrArg (Mark.char c :: ·) ih

theorem behind_text (s : Str) (ρ : Env) : Macro.behind (ι := ι) ρ (Step.text s) = ρ := by
  induction s with
  | nil => rfl
  | cons c s ih => exact ih

section

variable (C : Compiler) (S : Syn) (L : Lang ι) (cfg : Config) (H : Host ι (List TT) Env) (ρ : Env)

/-- The parts of a string from a place to the closing parenthesis. -/
structure Parted (p : Place) (src : Str) (bs : List Stretch) (is : List ι) (ts : List TT) (ps : List (Part (List TT))) : Prop where
  reads : ReadsAs C p src Halt ts
  means : Means S (.parts ts ps)
  evals : ps.any isEval = bs.any Stretch.isCode
  ink : emptyTextParts ps = false
  calls : ∃ cs, Spelt L cfg bs cs ∧ inserted cs = is ∧ (∀ c ∈ cs, ¬ EmptyCall c) ∧
    ∀ (stop : Pos) (n : Nat), C.pos p = ⟨stop.line, stop.column + n⟩ → ∃ as, strActs H stop (C.pos (go p src)) ps = some as ∧
      perform ρ as = List.replicate n (Mark.char ' ') ++ marks cs ∧ Macro.behind ρ as = ρ

variable {C S L cfg H ρ}

theorem parted_nil (p : Place) : Parted C S L cfg H ρ p [] [] [] [] [] := by
  refine ⟨readsAs_nil p _, .noParts, rfl, rfl, [], .nil, rfl, by simp, fun stop n h => ?_⟩
  refine ⟨Step.text (List.replicate n ' '), ?_, ?_, behind_text _ _⟩
  · rw [strActs, show go p [] = p from rfl, h, between, if_pos rfl]
    simp
  · rw [perform_text]
    simp [marks]

theorem parted_space {p : Place} {src : Str} {bs is ts ps} (h : Parted C S L cfg H ρ (p.next ' ') src bs is ts ps) :
    Parted C S L cfg H ρ p (' ' :: src) (.text [' '] :: bs) is ts ps := by
  obtain ⟨cs, c1, c2, c3, c4⟩ := h.calls
  refine ⟨(readsAs_space p (fun _ => True)).append h.reads (fun _ _ => trivial), h.means, h.evals, h.ink,
    .append (.literal (.static [' '])) :: cs, .text (.static [' ']) (by simp [ItemStr.text]) c1, c2, ?_, fun stop n hp => ?_⟩
  · intro c hc
    rcases List.mem_cons.1 hc with rfl | hc
    · simp [EmptyCall]
    · exact c3 c hc
  · obtain ⟨as, a1, a2, a3⟩ := c4 stop (n + 1) (by
      rw [pos_step C (by decide) (.inr (by decide)), hp]
      simp [Nat.add_assoc])
    refine ⟨as, a1, ?_, a3⟩
    rw [a2, List.replicate_succ', List.append_assoc]
    rfl

theorem parted_cons {p : Place} {s src : Str} {P : Str → Prop} {us : List TT} {q : Part (List TT)} {c0 : List (Call ι)} {b : Stretch}
    {is0 bs is ts ps} (h : Parted C S L cfg H ρ (go p s) src bs is ts ps)
    (hr : ReadsAs C p s P us) (hP : ∀ r, Halt r → P (src ++ r)) (hm : Means S (.parts ts ps) → Means S (.parts (us ++ ts) (q :: ps)))
    (hq : placeOf q = ⟨C.pos p, C.pos (go p s)⟩) (ha : ∃ a, partActs H q = some a ∧ perform ρ a = marks c0 ∧ Macro.behind ρ a = ρ)
    (hi : emptyTextPart q = false) (he : isEval q = b.isCode) (hb : ∀ bs cs, Spelt L cfg bs cs → Spelt L cfg (b :: bs) (c0 ++ cs))
    (hf : ∀ c ∈ c0, ¬ EmptyCall c) (hn : inserted c0 = is0) :
    Parted C S L cfg H ρ p (s ++ src) (b :: bs) (is0 ++ is) (us ++ ts) (q :: ps) := by
  obtain ⟨cs, c1, c2, c3, c4⟩ := h.calls
  refine ⟨hr.append h.reads hP, hm h.means, ?_, ?_, c0 ++ cs, hb _ _ c1, ?_, ?_, fun stop n hp => ?_⟩
  · rw [List.any_cons, List.any_cons, he, h.evals]
  · rw [emptyTextParts, hi, h.ink]; rfl
  · rw [inserted_append, hn, c2]
  · intro c hc
    rcases List.mem_append.1 hc with hc | hc
    · exact hf c hc
    · exact c3 c hc
  · obtain ⟨a, a1, a2, a3⟩ := ha
    obtain ⟨as, b1, b2, b3⟩ := c4 (C.pos (go p s)) 0 rfl
    refine ⟨Step.text (List.replicate n ' ') ++ a ++ as, ?_, ?_, ?_⟩
    · rw [strActs, hq, go_append, a1, b1, hp, between, if_pos rfl]
      simp
    · rw [perform_append, perform_append, Macro.behind_append, behind_text, perform_text, a2, a3, b2, marks_append]
      simp
    · rw [Macro.behind_append, Macro.behind_append, behind_text, a3, b3]

theorem text_acts (s : Str) (ρ : Env) : perform (ι := ι) ρ (Step.text s) = marks [.append (.literal (.static s))] ∧
    Macro.behind (ι := ι) ρ (Step.text s) = ρ := ⟨by rw [perform_text]; simp [marks, markOf], behind_text s ρ⟩

theorem full_text {s : Str} (h : s ≠ []) : ∀ c ∈ ([.append (.literal (.static s))] : List (Call ι)), ¬ EmptyCall c := by
  intro c hc
  cases List.mem_singleton.1 hc
  simpa [EmptyCall] using h

/-- Text. -/
theorem parted_text {p : Place} {s src v : Str} {P : Str → Prop} {us : List TT} {q : Part (List TT)} {bs is ts ps}
    (h : Parted C S L cfg H ρ (go p s) src bs is ts ps)
    (hr : ReadsAs C p s P us) (hP : ∀ r, Halt r → P (src ++ r)) (hm : Means S (.parts ts ps) → Means S (.parts (us ++ ts) (q :: ps)))
    (hq : placeOf q = ⟨C.pos p, C.pos (go p s)⟩) (ha : partActs H q = some (Step.text v)) (hi : emptyTextPart q = false)
    (he : isEval q = false) (hv : v ≠ []) :
    Parted C S L cfg H ρ p (s ++ src) (.text v :: bs) is (us ++ ts) (q :: ps) := by
  have := parted_cons (b := .text v) (c0 := [.append (.literal (.static v))]) (is0 := []) h hr hP hm hq
    ⟨_, ha, (text_acts v ρ).1, (text_acts v ρ).2⟩ hi (by rw [he]; rfl)
    (fun bs cs hs => .text (.static v) hv hs) (full_text hv) rfl
  simpa using this

/-- A token tree as it is written. -/
theorem parted_tree {p : Place} {s src : Str} {P : Str → Prop} {t : TT} {bs is ts ps} (h : Parted C S L cfg H ρ (go p s) src bs is ts ps)
    (hr : ReadsAs C p s P [t]) (hP : ∀ r, Halt r → P (src ++ r)) (hc : t.cur = ⟨C.pos p, C.pos (go p s)⟩)
    (ht : ∀ c j, t ≠ .punct c '$' j) (hd : S.display t = s) (hs : s ≠ []) :
    Parted C S L cfg H ρ p (s ++ src) (.text s :: bs) is (t :: ts) (.tt t.cur s :: ps) := by
  refine parted_text h hr hP (fun hm => ?_) hc rfl rfl rfl hs
  have := Means.plain ht hm
  rw [hd] at this
  exact this

theorem breaks_of {r : Str} (h : (r.head?.all (fun c => !nameChar c && c != '#' && c != '"' && c != '\'')) = true) {t : Str}
    (ht : Halt t) : Breaks (r ++ t) := by
  cases r with
  | nil => exact ht.breaks
  | cons c r =>
    intro d hd
    cases hd
    simp only [List.head?_cons, Option.all_some, Bool.and_eq_true, Bool.not_eq_true', bne_iff_ne, ne_eq] at h
    exact ⟨by rw [wordChar_eq]; exact h.1.1.1, h.1.1.2, h.1.2, h.2⟩

theorem numbers_rest (w : Str) : w.all nameChar = true → Spec.Text.numbers (some true) w = true → numberRest w = true := by
  intro h1 h2
  have : w.dropWhile (fun c => c.isDigit || c == '_') = [] := by
    rw [List.dropWhile_eq_nil_iff]
    induction w with
    | nil => simp
    | cons c w ih =>
      rw [List.all_cons, Bool.and_eq_true] at h1
      rw [Spec.Text.numbers, if_pos h1.1, Bool.and_eq_true] at h2
      intro x hx
      rcases List.mem_cons.1 hx with rfl | hx
      · simpa using h2.1
      · exact ih h1.2 h2.2 x hx
  simp [numberRest, this]

theorem parted_word {p : Place} {w src : Str} {bs is ts ps} (h : Parted C S L cfg H ρ (go p w) src bs is ts ps) (hw : w ≠ [])
    (hn : w.all nameChar = true) (hd : Spec.Text.numbers none w = true)
    (hr : (src.head?.all (fun c => !nameChar c && c != '#' && c != '"' && c != '\'')) = true)
    (hs : ∀ c, S.display (.ident c w) = w ∧ S.display (.lit c w) = w) :
    ∃ ts ps, Parted C S L cfg H ρ p (w ++ src) (.text w :: bs) is ts ps := by
  obtain ⟨c, w, rfl⟩ := List.exists_cons_of_ne_nil hw
  have hn' := hn
  rw [List.all_cons, Bool.and_eq_true] at hn
  rw [Spec.Text.numbers, if_pos hn.1] at hd
  have hk : ∃ t, wordToken C p (go p (c :: w)) (c :: w).reverse = some (.leaf t) ∧ t.cur = ⟨C.pos p, C.pos (go p (c :: w))⟩ ∧
      (∀ c j, t ≠ .punct c '$' j) ∧ S.display t = c :: w := by
    unfold wordToken
    rw [List.reverse_reverse]
    simp only
    by_cases hc : c.isDigit = true
    · rw [hc] at hd
      rw [if_pos hc, if_pos (numbers_rest w hn.2 hd)]
      exact ⟨_, rfl, rfl, by simp, (hs _).2⟩
    · rw [if_neg hc]
      exact ⟨_, rfl, rfl, by simp, (hs _).1⟩
  obtain ⟨t, t1, t2, t3, t4⟩ := hk
  have hR : ReadsAs C p (c :: w) Breaks [t] :=
    ⟨_, grows_leaf _, fun r hr => runs_word (by rw [wordChar_eq]; exact hn.1)
      (by rw [List.all_eq_true] at hn ⊢; intro x hx; rw [wordChar_eq]; exact hn.2 x hx) t1 hr⟩
  exact ⟨_, _, parted_tree h hR (fun r hr' => breaks_of hr hr') t2 t3 t4 hw⟩

theorem parted_punct {p : Place} {c : Char} {src : Str} {bs is ts ps} (h : Parted C S L cfg H ρ (p.next c) src bs is ts ps)
    (hc : symbol c = true) (hr : (c == '/' && src.head?.any (fun d => d == '/' || d == '*')) = false)
    (hs : ∀ cur j, S.display (.punct cur c j) = [c]) :
    ∃ ts ps, Parted C S L cfg H ρ p (c :: src) (.text [c] :: bs) is ts ps := by
  have hm : c ∈ ['~', '!', '@', '#', '%', '^', '&', '*', '-', '=', '+', '|', ';', ':', ',', '<', '.', '>', '/', '?'] := by
    simpa [symbol] using hc
  have f : ∀ d ∈ ['~', '!', '@', '#', '%', '^', '&', '*', '-', '=', '+', '|', ';', ':', ',', '<', '.', '>', '/', '?'],
      holeChar d = true ∧ punctChar d = true ∧ d ≠ '$' := by decide
  obtain ⟨f1, f2, f3⟩ := f c hm
  have hR : ReadsAs C p [c] (fun r => jointOf r = jointOf src ∧ startsComment (c :: r) = false)
      [.punct ⟨C.pos p, C.pos (p.next c)⟩ c (jointOf src)] := by
    refine ⟨_, grows_leaf _, fun r hr => ?_⟩
    have := runs_punct (C := C) (p := p) f1 f2 r hr.2
    rw [hr.1] at this
    exact this
  have hsc : startsComment (c :: src) = false := by
    cases src with
    | nil => simp [startsComment]
    | cons d src =>
      unfold startsComment
      split
      · rename_i e; cases e; simp at hr
      · rename_i e; cases e; simp at hr
      · rfl
  exact ⟨_, _, parted_tree (s := [c]) h hR (fun r hr' => ⟨joint_append hr' src, by rw [← List.cons_append, comment_append hr', hsc]⟩)
    rfl (by intro c' j e; cases e; exact f3 rfl) (hs _ _) (by simp)⟩

theorem quote_then {r t : Str} (h : r.head?.any nameChar = false) (ht : Halt t) : (r ++ t).head?.any wordChar = false := by
  cases r with
  | nil => exact ht.word
  | cons c r => rw [List.cons_append, List.head?_cons, Option.any_some, wordChar_eq]; exact h

theorem parted_quote {p : Place} {s v src : Str} {bs is ts ps} (h : Parted C S L cfg H ρ (go p ('"' :: s ++ ['"'])) src bs is ts ps)
    (hu : unquoted '"' s = some v) (hr : src.head?.any nameChar = false)
    (hs : ∀ c, S.display (.str c v ('"' :: s ++ ['"'])) = '"' :: s ++ ['"']) :
    ∃ ts ps, Parted C S L cfg H ρ p ('"' :: s ++ ['"'] ++ src) (.text ('"' :: s ++ ['"']) :: bs) is ts ps :=
  ⟨_, _, parted_tree h (readsAs_str hu p) (fun _ hr' => quote_then hr hr') rfl (by simp) (hs _) (by simp)⟩

theorem parted_char {p : Place} {s src : Str} {v : Char} {bs is ts ps} (h : Parted C S L cfg H ρ (go p ('\'' :: s ++ ['\''])) src bs is ts ps)
    (hu : unquoted '\'' s = some [v]) (hr : src.head?.any nameChar = false)
    (hs : ∀ c, S.display (.char c v ('\'' :: s ++ ['\''])) = '\'' :: s ++ ['\'']) :
    ∃ ts ps, Parted C S L cfg H ρ p ('\'' :: s ++ ['\''] ++ src) (.text ('\'' :: s ++ ['\'']) :: bs) is ts ps :=
  ⟨_, _, parted_tree h (readsAs_char hu p) (fun _ hr' => quote_then hr hr') rfl (by simp) (hs _) (by simp)⟩

theorem parted_dollar {p : Place} {src : Str} {bs is ts ps} (h : Parted C S L cfg H ρ (go p c!"$$") src bs is ts ps) :
    ∃ ts ps, Parted C S L cfg H ρ p (c!"$$" ++ src) (.text ['$'] :: bs) is ts ps := by
  have h1 := readsAs_punct (C := C) (p := p) (c := '$') (by decide) (by decide) (by decide) true
  have h2 := readsAs_punct (C := C) (p := p.next '$') (c := '$') (by decide) (by decide) (by decide) (jointOf src)
  exact ⟨_, _, parted_text h (h1.append h2 (fun r _ => rfl)) (fun r hr => joint_append hr src) (fun hm => Means.dollar hm) rfl rfl rfl rfl
    (by simp)⟩

/-- `$[word](…)` -/
theorem reads_marked {p : Place} {t : Str} {ts : List TT} (c : Char) (w : Str) (hc : wordChar c = true) (hw : w.all wordChar = true)
    (hd : c.isDigit = false) (h : ReadsAs C (go p ('$' :: '[' :: (c :: w ++ c!"]("))) t Halt ts) (P : Str → Prop) :
    ∃ a b i j, ReadsAs C p ('$' :: '[' :: (c :: w ++ c!"](") ++ (t ++ [')'])) P (.punct a '$' j :: .group b .bracket [.ident i (c :: w)] ::
      [.group ⟨C.pos (go p ('$' :: '[' :: (c :: w ++ [']']))), C.pos (go p ('$' :: '[' :: (c :: w ++ c!"](") ++ (t ++ [')'])))⟩
        .parenthesis ts]) ∧ a.start = C.pos p := by
  have h1 := readsAs_punct (C := C) (p := p) (c := '$') (by decide) (by decide) (by decide) false
  have h2 := ReadsAs.group (C := C) (p := p.next '$') .bracket (readsAs_name (C := C) (p := (p.next '$').next '[') hc hw hd)
    (fun r => by intro d hd; cases hd; decide)
  have e1 : go (p.next '$') ('[' :: (c :: w ++ [']'])) = go p ('$' :: '[' :: (c :: w ++ [']'])) := rfl
  have e2 : go p ('$' :: '[' :: (c :: w ++ c!"](")) = (go p ('$' :: '[' :: (c :: w ++ [']']))).next '(' := by
    rw [show ('$' :: '[' :: (c :: w ++ c!"](") : Str) = ('$' :: '[' :: (c :: w ++ [']'])) ++ ['('] by simp, go_append]
    rfl
  rw [e2] at h
  have h3 := ReadsAs.group (C := C) (p := go p ('$' :: '[' :: (c :: w ++ [']']))) .parenthesis h (fun r => halt_close r)
  have h4 := (h1.append (h2.append h3 (fun _ _ => trivial)) (fun r _ => rfl)).weaken (Q := P) (fun _ _ => trivial)
  have e3 : ['$'] ++ ('[' :: (c :: w ++ [']']) ++ '(' :: (t ++ [')'])) = '$' :: '[' :: (c :: w ++ c!"](") ++ (t ++ [')']) := by simp
  have e4 : go (go p ('$' :: '[' :: (c :: w ++ [']']))) ('(' :: (t ++ [')'])) =
      go p ('$' :: '[' :: (c :: w ++ c!"](") ++ (t ++ [')'])) := by
    rw [← go_append]
    congr 1
  have h5 : ReadsAs C p (['$'] ++ ('[' :: (c :: w ++ [']']) ++ '(' :: (t ++ [')']))) P _ := h4
  rw [e3] at h5
  simp only [opener, closer] at h5
  rw [e4] at h5
  exact ⟨_, _, _, _, h5, rfl⟩

theorem parted_const {p : Place} {s v src : Str} {bs is ts ps}
    (h : Parted C S L cfg H ρ (go p (c!"$[const](\"" ++ (s ++ c!"\")"))) src bs is ts ps)
    (hu : unquoted '"' s = some v) (hv : v ≠ []) :
    ∃ ts ps, Parted C S L cfg H ρ p (c!"$[const](\"" ++ (s ++ c!"\")") ++ src) (.text v :: bs) is ts ps := by
  obtain ⟨a, b, i, j, h1, h2⟩ := reads_marked (C := C) (p := p) 'c' c!"onst" (by decide) (by decide) (by decide)
    ((readsAs_str (C := C) hu _).weaken (fun _ hr => hr.word)) (fun _ => True)
  have e : '$' :: '[' :: ('c' :: c!"onst" ++ c!"](") ++ (('"' :: s ++ ['"']) ++ [')']) = c!"$[const](\"" ++ (s ++ c!"\")") := by simp
  rw [e] at h1
  refine ⟨_, _, parted_text h h1 (fun _ _ => trivial) (fun hm => Means.constant hm) ?_ rfl rfl rfl hv⟩
  show (⟨a.start, _⟩ : Cur) = _
  rw [h2]

theorem parted_raw {p : Place} {e src : Str} {bs is ts ps} (it : ItemStr) (he : Reads C e)
    (ha : Always C e (fun ts => (∀ c s text, ts ≠ [.str c s text]) ∧ S.fullExpr ts = some (ts, [])))
    (hv : Always C e (fun ts => H.value ρ ts = [.append (.literal it)])) (hi : it.text ≠ [])
    (h : Parted C S L cfg H ρ (go p (c!"$[const](" ++ (e ++ c!")"))) src bs is ts ps) :
    ∃ ts ps, Parted C S L cfg H ρ p (c!"$[const](" ++ (e ++ c!")") ++ src) (.text it.text :: bs) is ts ps := by
  obtain ⟨te, hl⟩ := he.lexes (go p c!"$[const](")
  obtain ⟨a, b, i, j, h1, h2⟩ := reads_marked (C := C) (p := p) 'c' c!"onst" (by decide) (by decide) (by decide)
    (readsAs_code hl he.silent) (fun _ => True)
  have e : '$' :: '[' :: ('c' :: c!"onst" ++ c!"](") ++ (e ++ [')']) = c!"$[const](" ++ (e ++ c!")") := by simp
  rw [e] at h1
  obtain ⟨a1, a2⟩ := ha _ _ hl
  refine ⟨_, _, parted_cons (is0 := []) (c0 := [.append (.literal it)]) h h1 (fun _ _ => trivial)
    (fun hm => Means.raw a1 a2 hm) ?_ ⟨_, rfl, ?_, rfl⟩ rfl rfl (fun bs cs hs => .text it hi hs) ?_ rfl⟩
  · show (⟨a.start, _⟩ : Cur) = _
    rw [h2]
  · show marks (H.value ρ te) ++ [] = _
    rw [hv _ _ hl, List.append_nil]
  · intro c hc
    cases List.mem_singleton.1 hc
    cases it <;> simp_all [EmptyCall, ItemStr.text]

/-- Code. -/
theorem code_calls {ds : List (Call ι)} {vs : List Str} (hB : Template.BlockOf L cfg ds vs) (bs : List Stretch) (cs : List (Call ι))
    (h : Spelt L cfg bs cs) : Spelt L cfg (.code vs :: bs) ((.append .openEval :: (ds ++ [.append .closeEval])) ++ cs) := by
  simpa using Spelt.code hB h

theorem full_code {ds : List (Call ι)} (h : ∀ c ∈ ds, ¬ EmptyCall c) :
    ∀ c ∈ (.append .openEval :: (ds ++ [.append .closeEval]) : List (Call ι)), ¬ EmptyCall c := by
  intro c hc
  rcases List.mem_cons.1 hc with rfl | hc
  · simp [EmptyCall]
  rcases List.mem_append.1 hc with hc | hc
  · exact h c hc
  · cases List.mem_singleton.1 hc; simp [EmptyCall]

theorem inserted_code (ds : List (Call ι)) : inserted (.append .openEval :: (ds ++ [.append .closeEval])) = inserted ds := by
  rw [show (Call.append .openEval :: (ds ++ [.append .closeEval]) : List (Call ι)) =
    [.append .openEval] ++ (ds ++ [.append .closeEval]) from rfl, inserted_append, inserted_append,
    show inserted [Call.append (ι := ι) .openEval] = [] from rfl, show inserted [Call.append (ι := ι) .closeEval] = [] from rfl]
  simp

theorem code_acts {as : List (Step ι Env)} {ds : List (Call ι)} (h1 : perform ρ as = marks ds) (h2 : Macro.behind ρ as = ρ) :
    perform ρ (Step.call (.append .openEval) :: as ++ [Step.call (.append .closeEval)]) =
      marks (.append .openEval :: (ds ++ [.append .closeEval])) ∧
    Macro.behind ρ (Step.call (.append .openEval) :: as ++ [Step.call (.append .closeEval)]) = ρ := by
  have e1 : (Step.call (.append .openEval) :: as ++ [Step.call (.append .closeEval)] : List (Step ι Env)) =
      [Step.call (.append .openEval)] ++ (as ++ [Step.call (.append .closeEval)]) := rfl
  have e2 : (Call.append .openEval :: (ds ++ [.append .closeEval]) : List (Call ι)) =
    [.append .openEval] ++ (ds ++ [.append .closeEval]) := rfl
  have h0 : Macro.behind ρ [Step.call (ι := ι) (.append .openEval)] = ρ := rfl
  rw [e1, e2, perform_append, perform_append, marks_append, marks_append, h0, h1, h2, Macro.behind_append, Macro.behind_append, h0, h2]
  exact ⟨rfl, rfl⟩

theorem parted_name {p : Place} {c : Char} {w src : Str} {bs is ts ps} (h : Parted C S L cfg H ρ (go p ('$' :: c :: w)) src bs is ts ps)
    (hn : (c :: w).all nameChar = true) (hd : c.isDigit = false) (hk : S.keyword (c :: w) = false)
    (hr : (src.head?.all (fun c => !nameChar c && c != '#' && c != '"' && c != '\'')) = true) :
    ∃ ts ps, Parted C S L cfg H ρ p ('$' :: c :: w ++ src) (.code [c :: w] :: bs) is ts ps := by
  rw [List.all_cons, Bool.and_eq_true] at hn
  have h1 := readsAs_punct (C := C) (p := p) (c := '$') (by decide) (by decide) (by decide) false
  have h2 := readsAs_name (C := C) (p := p.next '$') (c := c) (w := w) hn.1 hn.2 hd
  have h3 := h1.append h2 (fun r' _ => (by
    show jointOf (c :: (w ++ r')) = false
    unfold jointOf
    rw [List.head?_cons, Option.any_some, punct_name hn.1, Bool.and_false]))
  obtain ⟨a1, a2⟩ := code_acts (ρ := ρ) (text_acts (ι := ι) (c :: w) ρ).1 (text_acts (c :: w) ρ).2
  exact ⟨_, _, parted_cons (is0 := []) h h3 (fun r hr' => breaks_of hr hr') (fun hm => Means.value hk hm) rfl ⟨_, rfl, a1, a2⟩ rfl rfl
    (code_calls (blockOf_word L cfg (by simp))) (full_code (full_text (by simp))) rfl⟩

/-- Text on one line makes the same wherever its parentheses are. -/
theorem line_acts (hH : Full H) (hQ : HomQuote L) {k : Nat} {l : Line ι} {p : Place} {par : Cur} (hf : Fit k [l]) (hp : At C p k)
    (hfr : framed [l] = true) (hn : '\n' ∉ sourceLine l) (h1 : l.head?.all Doc.isSpace = false) (h2 : l.getLast?.all Doc.isSpace = false)
    (hh : HeldIn C S L cfg H ρ p [l] ρ) :
    ∃ ts ns as ds, ReadsAs C p (sourceLine l) Halt ts ∧ Means S (.nodes ts ns) ∧ emptyText ns = false ∧
      (stepsOf H ns).bind (block Step.ws (some (inner (headSpan par ts)))) = some as ∧ perform ρ as = marks ds ∧ Macro.behind ρ as = ρ ∧
      Template.BlockOf L cfg ds (Doc.linesOf cfg k [l]) ∧ inserted ds = Doc.importsOf [l] ∧ ∀ c ∈ ds, ¬ EmptyCall c := by
  have hseen : seenBy C [l] = [l] := by cases C <;> rfl
  have hsrc : sourceOf [l] = sourceLine l := by simp [sourceOf, Macro.textOf]
  obtain ⟨ts, ns, r, ss, hM⟩ := text_meant (S := S) (cfg := cfg) (ρ := ρ) hH.value hH.scope hQ (by rw [hseen]; exact hf) hp hh
  rw [hseen, hsrc] at hM
  have hso := hf.sound l (by simp)
  obtain ⟨ρ₁, hhe, e0⟩ := hh.1
  have e0 : ρ = ρ₁ := e0
  subst e0
  obtain ⟨F, r', e, hP⟩ := line_pieces (C := C) (S := S) (L := L) (cfg := cfg) (H := H) (ρ' := ρ) l.length l (Nat.le_refl _) ρ p
    (C.pos p) 0 hso.chars hso.apart hso.numbers hso.loose hhe rfl
  obtain ⟨ts', ns', b1, b2, b3⟩ := pieces_balanced hP.valid hf.nested (by
    rw [hP.brackets]; simp [Macro.textOf])
  have e1 : ts' = ts := readsAs_unique (P := Halt) ⟨_, b1, hP.runs⟩ hM.reads halt_nil halt_nil
  subst e1
  have e2 := means_unique b2 hM.means
  subst e2
  have hch := hP.chain
  rw [← b3] at hch
  obtain ⟨z, hz, hzs⟩ : ∃ z, l.getLast? = some z ∧ Doc.isSpace z = false := by
    cases hz : l.getLast? with
    | none => rw [hz] at h2; cases h2
    | some z => rw [hz] at h2; exact ⟨z, rfl, h2⟩
  have he := hP.stop.2 z hz hzs
  obtain ⟨y, l', rfl⟩ : ∃ y l', l = y :: l' := by
    cases l with
    | nil => cases h1
    | cons y l' => exact ⟨y, l', rfl⟩
  have hy : Doc.isSpace y = false := h1
  have hy' : (y.shape == ' ') = false := by rw [← isSpace_shape]; exact hy
  have hcol : columnOf (shape (y :: l')) = 0 := by
    simp [columnOf, shape, hy']
  cases r' with
  | nil =>
    have := hP.none.1 rfl
    simp [shape, blank, hy'] at this
  | cons x r' =>
    obtain ⟨g, G⟩ := x
    have hg : g = 0 := by have := hP.first _ _ rfl; simpa [hcol] using this
    subst hg
    cases hfl : Template.flatten ns' with
    | nil => rw [hfl] at hch; cases hch
    | cons n rest =>
      rw [hfl] at hch
      cases hch with
      | @cons _ ρ₁ _ _ _ stop _ _ _ _ _ hn1 hc =>
      obtain ⟨qs, as, i1, i2, i3, i4⟩ := chain_laid hc
      obtain ⟨bs, s1, s2, s3⟩ := hn1.step
      have hst : stepsOf H ns' = some ((⟨⟨(C.pos p).line, (C.pos p).column + 0⟩, stop⟩, bs) :: qs) := by
        rw [← stepsOf_flatten, hfl]
        exact stepsOf_cons H _ _ _ _ s1 i1
      have hnone : (stepsOf H ns').bind (block Step.ws none) = some (bs ++ as) := by
        rw [hst, Option.bind_some]
        show (laidOut Step.ws none _ [] stop qs).map _ = _
        have := i4 none ((C.pos p).column + 0) [] []
        rw [List.append_nil] at this
        rw [this]
        simp [laidOut, depth, enclosing]
      have hts : ts' ≠ [] := by
        rintro rfl
        cases b2
        cases hfl
      obtain ⟨t, ts, rfl⟩ := List.exists_cons_of_ne_nil hts
      obtain ⟨⟨w1, w2, w3⟩, w4, w5⟩ := lex_within (hM.reads.lex halt_nil) hn t (by simp)
      have hspan : (headSpan par (t :: ts)).start.line = (C.pos p).line ∧ (C.pos p).column ≤ (headSpan par (t :: ts)).start.column ∧
          (headSpan par (t :: ts)).stop.line = (C.pos p).line ∧ (headSpan par (t :: ts)).stop.column - 1 ≤ e.column := by
        rw [he]
        cases t with
        | group cur d content => exact ⟨w1, w2, w1, w3⟩
        | _ => exact ⟨w1, w2, w4, Nat.le_trans (Nat.sub_le _ _) w5⟩
      obtain ⟨p1, p2, p3, p4⟩ := hspan
      have hel : e.line = (C.pos p).line := by
        rw [hP.line]
        obtain ⟨m, hm⟩ := pos_line (C := C) (sourceLine (y :: l')) p hn
        rw [hm]
      have hsome : (stepsOf H ns').bind (block Step.ws (some (inner (headSpan par (t :: ts))))) = some (bs ++ as) := by
        rw [hst, Option.bind_some]
        generalize headSpan par (t :: ts) = hs at p1 p2 p3 p4
        simp only [block, inner]
        have := i4 (some ⟨hs.stop.line, hs.stop.column - 1⟩) (hs.start.column + 1) [] []
        rw [List.append_nil] at this
        rw [laidOut, gapBefore, if_pos p1, if_neg (show ¬ hs.start.column + 1 < (C.pos p).column + 0 by omega), Option.bind_some,
          if_pos p1, this, laidOut]
        simp [gapBefore, hel, p3, Nat.not_lt.2 p4, depth, enclosing]
      obtain ⟨-, q2⟩ := quote_ok H none (nodes_ok H ns')
      obtain ⟨ss', q3, q4⟩ := q2 _ hnone
      have hq : Macro.quote none ns' = .ok (interpolated ns', ss') := q3
      have hss : ss' = ss := by
        have := hM.quoted
        rw [hq] at this
        cases this
        rfl
      subst hss
      refine ⟨_, ns', bs ++ as, runBlock H ρ ss', hM.reads, hM.means, hM.ink, hsome, ?_, ?_,
        ⟨hM.block ?_ hfr, hM.uniform, hM.lines⟩, hM.imports, quote_full H hH.value hH.scope none ns' hM.ink _ ss' hq ρ⟩
      · rw [← q4, perform_evs]
      · rw [Macro.behind_append, s3, i3]
      · exact one_level _ _

theorem parted_code (hH : Full H) (hQ : HomQuote L) {k : Nat} {l : Line ι} {p : Place} {src : Str} {bs is ts ps}
    (hf : Fit (Doc.behind k c!"$(") [l]) (hp : At C p k) (hfr : framed [l] = true) (hn : '\n' ∉ sourceLine l)
    (h1 : l.head?.all Doc.isSpace = false) (h2 : l.getLast?.all Doc.isSpace = false)
    (hh : HeldIn C S L cfg H ρ (go p c!"$(") [l] ρ)
    (h : Parted C S L cfg H ρ (go p (c!"$(" ++ (sourceLine l ++ c!")"))) src bs is ts ps) :
    ∃ ts ps, Parted C S L cfg H ρ p (c!"$(" ++ (sourceLine l ++ c!")") ++ src)
      (.code (Doc.linesOf cfg (Doc.behind k c!"$(") [l]) :: bs) (Doc.importsOf [l] ++ is) ts ps := by
  obtain ⟨us, ns, as, ds, r1, r2, r3, r4, r5, r6, r7, r8, r9⟩ := line_acts (C := C) (S := S) (L := L) (cfg := cfg) (ρ := ρ)
    (par := ⟨C.pos (p.next '$'), C.pos (go (p.next '$') ('(' :: (sourceLine l ++ [')'])))⟩) hH hQ hf (hp.go _) hfr hn h1 h2 hh
  have g1 := readsAs_punct (C := C) (p := p) (c := '$') (by decide) (by decide) (by decide) false
  have g2 := ReadsAs.group (C := C) (p := p.next '$') .parenthesis r1 (fun r => halt_close r)
  have g3 := (g1.append g2 (fun r _ => rfl)).weaken (Q := fun _ => True) (fun _ _ => trivial)
  obtain ⟨a1, a2⟩ := code_acts r5 r6
  refine ⟨_, _, parted_cons h g3 (fun _ _ => trivial) (fun hm => Means.stream r2 hm) rfl ⟨_, ?_, a1, a2⟩ r3 rfl (code_calls r7)
    (full_code r9) ((inserted_code ds).trans r8)⟩
  rw [partActs]
  simp only [Option.bind_eq_bind] at r4 ⊢
  cases hs : stepsOf H ns with
  | none => rw [hs] at r4; cases r4
  | some x =>
    rw [hs, Option.bind_some] at r4
    rw [Option.bind_some]
    simp only [opener, closer]
    rw [r4]
    rfl

/-! ## Strings -/

theorem stood_str (hQ : HomQuote L) {p : Place} {b : Str} {bits is ts ps}
    (ho : (L.openQuote (bits.any Stretch.isCode)).flatten ≠ []) (hc : (L.closeQuote (bits.any Stretch.isCode)).flatten ≠ [])
    (hE : bits.any Stretch.isCode = true → ∀ s, L.evalLiteral s = L.startEval ++ [s] ++ L.endEval)
    (h : Parted C S L cfg H ρ (go p c!"$[str](") b bits is ts ps) :
    Stood C S L cfg H ρ p (c!"$[str](" ++ (b ++ c!")")) (stringLines L bits) is ρ := by
  obtain ⟨cs, c1, c2, c3, c4⟩ := h.calls
  obtain ⟨a, b', i, j, h1, h2⟩ := reads_marked (C := C) (p := p) 's' c!"tr" (by decide) (by decide) (by decide) h.reads (fun _ => True)
  have e : '$' :: '[' :: ('s' :: c!"tr" ++ c!"](") ++ (b ++ [')']) = c!"$[str](" ++ (b ++ c!")") := by simp
  rw [e] at h1
  obtain ⟨as, a1, a2, a3⟩ := c4 _ 0 rfl
  have hi : inner ⟨C.pos (go p ('$' :: '[' :: ('s' :: c!"tr" ++ [']']))), C.pos (go p (c!"$[str](" ++ (b ++ c!")")))⟩ =
      (C.pos (go p c!"$[str]("), C.pos (go (go p c!"$[str](") b)) := by
    have e1 : go p (c!"$[str](" ++ (b ++ c!")")) = (go (go p c!"$[str](") b).next ')' := by rw [go_append, go_append]; rfl
    have e2 : go p c!"$[str](" = (go p ('$' :: '[' :: ('s' :: c!"tr" ++ [']']))).next '(' := rfl
    rw [e1, e2, inner]
    simp only
    rw [pos_step C (by decide) (.inr (by decide)), pos_step C (by decide) (.inr (by decide))]
    simp
  refine ⟨⟨_, _, rfl, .inl rfl⟩, .str (through a ⟨C.pos (go p ('$' :: '[' :: ('s' :: c!"tr" ++ [']']))), C.pos (go p (c!"$[str](" ++ (b ++ c!")")))⟩)
    ⟨C.pos (go p ('$' :: '[' :: ('s' :: c!"tr" ++ [']']))), C.pos (go p (c!"$[str](" ++ (b ++ c!")")))⟩ ps,
    .append (.openQuote (bits.any Stretch.isCode)) :: (cs ++ [.append .closeQuote]), ⟨?_, ?_, ?_⟩, rfl, .inl (spelt_block hQ c1 ho hc hE), ?_,
    fun j => ⟨_, h1.weaken (fun _ _ => trivial), fun us ms hm => Means.str h.means hm⟩⟩
  · have e1 : (Step.call (.append (.openQuote (bits.any Stretch.isCode))) :: as ++ [Step.call (.append .closeQuote)] : List (Step ι Env)) =
        [Step.call (.append (.openQuote (bits.any Stretch.isCode)))] ++ (as ++ [Step.call (.append .closeQuote)]) := rfl
    have e2 : (Call.append (.openQuote (bits.any Stretch.isCode)) :: (cs ++ [.append .closeQuote]) : List (Call ι)) =
      [.append (.openQuote (bits.any Stretch.isCode))] ++ (cs ++ [.append .closeQuote]) := rfl
    have h0 : Macro.behind ρ [Step.call (ι := ι) (.append (.openQuote (bits.any Stretch.isCode)))] = ρ := rfl
    refine ⟨[Step.call (.append (.openQuote (bits.any Stretch.isCode)))] ++ (as ++ [Step.call (.append .closeQuote)]), ?_, ?_, ?_⟩
    · rw [stepOf, hi]
      simp only
      rw [show strActs H (C.pos (go p c!"$[str](")) (C.pos (go (go p c!"$[str](") b)) ps = some as from a1, h.evals, through, h2]
      rfl
    · rw [e2, perform_append, perform_append, marks_append, marks_append, h0, a2, a3]
      rfl
    · rw [Macro.behind_append, Macro.behind_append, h0, a3]
      rfl
  · exact h.ink
  · intro c hc'
    rcases List.mem_cons.1 hc' with rfl | hc'
    · simp [EmptyCall]
    rcases List.mem_append.1 hc' with hc' | hc'
    · exact c3 c hc'
    · cases List.mem_singleton.1 hc'; simp [EmptyCall]
  · rw [show (Call.append (.openQuote (bits.any Stretch.isCode)) :: (cs ++ [.append .closeQuote]) : List (Call ι)) =
      [.append (.openQuote (bits.any Stretch.isCode))] ++ (cs ++ [.append .closeQuote]) from rfl, inserted_append, inserted_append, c2,
      show inserted [Call.append (ι := ι) (.openQuote (bits.any Stretch.isCode))] = [] from rfl,
      show inserted [Call.append (ι := ι) .closeQuote] = [] from rfl]
    simp

end

end Genco.Proofs.DocFile
