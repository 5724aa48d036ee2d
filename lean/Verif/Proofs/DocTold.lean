import Verif.Proofs.DocSep
import Verif.Proofs.DocComma
import Verif.Proofs.DocSeen
import Verif.Proofs.DocPart

/-!
# Templates in source text: what the rules say is so
-/

set_option autoImplicit false

namespace Genco.Proofs.DocFile

open Genco Macro Spec Spec.Text Spec.MacroFile Spec.Doc Genco.Proofs Genco.Proofs.TextFile

variable {ι Env : Type}

section

variable (C : Compiler) (S : Syn) (L : Lang ι) (cfg : Config) (H : Host ι (List TT) Env)

/-- A text in a hole. -/
structure Texted (ρ : Env) (p : Place) (src : Str) (vs : List Str) (is : List ι) (ts : List TT) (ns : List (Node (List TT)))
    (r : Bool) (ss : List (Stmt ι (List TT))) : Prop where
  reads : ReadsAs C p src Halt ts
  means : Means S (.nodes ts ns)
  ink : emptyText ns = false
  quoted : Macro.quote none ns = .ok (r, ss)
  block : Makes L cfg (runBlock H ρ ss) vs
  imports : inserted (runBlock H ρ ss) = is

/-- Arms in a hole. -/
structure Armed (ρ : Env) (te : List TT) (p : Place) (src : Str) (res : Option (List Str × List ι)) (ts : List TT)
    (as : List (Arm (List TT))) (r : Bool) (out : List (List TT × Option (List TT) × List (Stmt ι (List TT)))) : Prop where
  reads : ReadsAs C p src Halt ts
  means : Means S (.arms ts as)
  comma : begins isComma ts = false
  ink : emptyTextArms as = false
  quoted : arms as = .ok (r, out)
  result : match res with
    | none => runArms H ρ te out = []
    | some x => Makes L cfg (runArms H ρ te out) x.1 ∧ inserted (runArms H ρ te out) = x.2

/-- Holes one behind the other. -/
def Row : Env → List (Nat × Str × List Str × List ι) → Env → Prop
  | ρ, [], ρ' => ρ' = ρ
  | ρ, x :: xs, ρ' => ∃ ρ₁, (∀ q : Place, At C q x.1 → Stood C S L cfg H ρ q x.2.1 x.2.2.1 x.2.2.2 ρ₁) ∧ Row ρ₁ xs ρ'

/-- What a form promises. -/
def Good (ρ : Env) : Doc.Form ι Env → Prop
  | .hole k src vs is => ∀ p : Place, At C p k → Stood C S L cfg H ρ p src vs is ρ
  | .holes xs ρ' => Row C S L cfg H ρ xs ρ'
  | .text k src vs is => ∀ p : Place, At C p k → ∃ ts ns r ss, Texted C S L cfg H ρ p src vs is ts ns r ss
  | .arms e k src res => ∀ p : Place, At C p k → ∀ q te, lex C q e = some te →
    ∃ ts as r out, Armed C S L cfg H ρ te p src res ts as r out
  | .parts k src bits is => ∀ p : Place, At C p k → ∃ ts ps, Parted C S L cfg H ρ p src bits is ts ps

variable {C S L cfg H} {ρ : Env}

theorem Texted.same {H' : Host ι (List TT) Env} {ρ' : Env} {p : Place} {src : Str} {vs vs' : List Str} {is is' : List ι} {ts ts' ns ns' r r' ss ss'}
    (h : Texted C S L cfg H ρ p src vs is ts ns r ss) (h' : Texted C S L cfg H' ρ' p src vs' is' ts' ns' r' ss') :
    ts' = ts ∧ ns' = ns ∧ r' = r ∧ ss' = ss := by
  have e1 := readsAs_unique h'.reads h.reads halt_nil halt_nil
  subst e1
  have e2 := means_unique h'.means h.means
  subst e2
  have := h'.quoted
  rw [h.quoted] at this
  cases this
  exact ⟨rfl, rfl, rfl, rfl⟩

/-! ## Parts of holes -/

theorem stood_key (hH : Full H) (w : Str) (hw : w.all wordChar = true) (hd : (w.head?.all Char.isDigit) = false) {p : Place}
    {u : Str} {us : List TT} {n : Cur → Node (List TT)} {cs vs is} (hr : ReadsAs C (go p (c!"$(" ++ (w ++ [' ']))) u Halt us)
    (hm : ∀ cur c, Means S (.inside cur (.ident c w :: us) (n cur)))
    (hf : Template.Fills H ρ n cs) (hB : Makes L cfg cs vs) (hi : inserted cs = is) :
    Stood C S L cfg H ρ p (c!"$(" ++ (w ++ (' ' :: (u ++ [')'])))) vs is ρ := by
  obtain ⟨c, hc⟩ := readsAs_key (C := C) w hw hd (fun _ => True) (go p c!"$(")
  rw [go_append] at hr
  have := stood_paren (C := C) (S := S) (L := L) (cfg := cfg) (ρ := ρ) hH (hc.append hr (fun _ _ => trivial))
    (fun cur => hm cur c) hf hB hi
  simpa using this

theorem code_reads {e : Str} (he : Reads C e) (q : Place) : ∃ te, lex C q e = some te ∧ ReadsAs C q e Halt te := by
  obtain ⟨te, h⟩ := he.lexes q
  exact ⟨te, h, readsAs_code h he.silent⟩

theorem body_halt (br : Bool) (b r : Str) : Halt (bodyOf br b ++ r) := by
  cases br <;> exact halt_space _

theorem body_reads {q : Place} {b : Str} {ts : List TT} {ns} (br : Bool)
    (h : ReadsAs C (go q (if br then c!" {" else c!" =>")) b Halt ts) (hm : Means S (.nodes ts ns)) :
    ∃ r, ReadsAs C q (bodyOf br b) Halt r ∧ Means S (.body r ns) ∧ endsExpr r = true ∧ begins (isWord "join") r = false := by
  cases br with
  | true =>
    obtain ⟨cur, hc⟩ := readsAs_braces q h Halt
    exact ⟨_, hc, .braces hm, rfl, rfl⟩
  | false =>
    obtain ⟨x, y, j, hc⟩ := readsAs_arrow q h
    exact ⟨_, hc, .behind hm, rfl, rfl⟩

theorem place_eq (p : Place) (a b : Str) : go (go p a) b = go p (a ++ b) := (go_append p a b).symm

theorem stood_if (hH : Full H) {H1 : Host ι (List TT) Env} {ρ1 : Env} {p : Place} {c b : Str} {vs is vs1 is1} {ts ns r ss} (br : Bool)
    (hc : IsExpr C S c)
    (hT : Texted C S L cfg H1 ρ1 (go p ((c!"$(if " ++ c) ++ if br then c!" {" else c!" =>")) b vs1 is1 ts ns r ss)
    (hB : ∀ te, (∃ q, lex C q c = some te) → Makes L cfg ((H.test ρ te).elim [] (fun ρ' => runBlock H ρ' ss)) vs ∧
      inserted ((H.test ρ te).elim [] (fun ρ' => runBlock H ρ' ss)) = is) :
    Stood C S L cfg H ρ p (c!"$(if " ++ (c ++ (bodyOf br b ++ c!")"))) vs is ρ := by
  obtain ⟨te, e1, e2⟩ := code_reads hc.toReads (go p c!"$(if ")
  have hr := hT.reads
  rw [go_append, go_append] at hr
  obtain ⟨rb, b1, b2, b3, -⟩ := body_reads br hr hT.means
  obtain ⟨hB1, hB2⟩ := hB te ⟨_, e1⟩
  have := stood_key (C := C) (S := S) (L := L) (cfg := cfg) hH c!"if" (by decide) (by decide) (p := p)
    (e2.append b1 (fun r _ => body_halt br b r))
    (fun cur c => Means.ifThen (c := c) (hc.takes _ _ e1 rb b3) b2)
    (fills_ifThen H ρ te ns hT.ink r ss hT.quoted) hB1 hB2
  simpa using this

theorem stood_ifElse (hH : Full H) {H1 H2 : Host ι (List TT) Env} {ρ1 ρ2 : Env} {p : Place} {c b d : Str} {vs is vs1 is1 vs2 is2} {ts ns r ss ts' ns' r' ss'}
    (hc : IsExpr C S c)
    (hb : Texted C S L cfg H1 ρ1 (go p ((c!"$(if " ++ c) ++ c!" {")) b vs1 is1 ts ns r ss)
    (hd : Texted C S L cfg H2 ρ2 (go p (c!"$(if " ++ (c ++ (c!" {" ++ (b ++ c!"} else {"))))) d vs2 is2 ts' ns' r' ss')
    (hB : ∀ te, (∃ q, lex C q c = some te) →
      Makes L cfg ((H.test ρ te).elim (runBlock H ρ ss') (fun ρ' => runBlock H ρ' ss)) vs ∧
      inserted ((H.test ρ te).elim (runBlock H ρ ss') (fun ρ' => runBlock H ρ' ss)) = is) :
    Stood C S L cfg H ρ p (c!"$(if " ++ (c ++ (c!" {" ++ (b ++ (c!"} else {" ++ (d ++ c!"})")))))) vs is ρ := by
  obtain ⟨te, e1, e2⟩ := code_reads hc.toReads (go p c!"$(if ")
  have hr := hb.reads
  rw [go_append, go_append] at hr
  obtain ⟨c1, b1⟩ := readsAs_braces _ hr Halt
  have hr' := hd.reads
  have e3 : go p (c!"$(if " ++ (c ++ (c!" {" ++ (b ++ c!"} else {")))) =
      go (go (go (go (go p c!"$(if ") c) (c!" {" ++ (b ++ c!"}"))) c!" else") c!" {" := by
    rw [place_eq, place_eq, place_eq, place_eq]
    congr 1
    simp
  rw [e3] at hr'
  obtain ⟨c3, b3⟩ := readsAs_braces _ hr' Halt
  have h2 := readsAs_name (C := C) (p := (go (go (go p c!"$(if ") c) (c!" {" ++ (b ++ c!"}"))).next ' ') (c := 'e') (w := c!"lse")
    (by decide) (by decide) (by decide)
  have h3 := (readsAs_space (C := C) (go (go (go p c!"$(if ") c) (c!" {" ++ (b ++ c!"}"))) (fun _ => True)).append h2
    (fun _ _ => trivial)
  have h4 := h3.append b3 (fun r _ => (halt_space _).breaks)
  obtain ⟨hB1, hB2⟩ := hB te ⟨_, e1⟩
  have := stood_key (C := C) (S := S) (L := L) (cfg := cfg) hH c!"if" (by decide) (by decide) (p := p)
    (e2.append (b1.append h4 (fun r _ => halt_space _)) (fun r _ => halt_space _))
    (fun cur c => Means.ifElse (c := c) (hc.takes _ _ e1 _ rfl) hb.means hd.means)
    (fills_else H ρ te ns ns' hb.ink hd.ink r r' ss ss' hb.quoted hd.quoted) hB1 hB2
  simpa using this

theorem stood_value (hH : Full H) {p : Place} {e : Str} {cs vs is} (he : Reads C e)
    (ha : Always C e (fun ts => begins isLead ts = false ∧ (∀ c s text, ts ≠ [.str c s text]) ∧ S.fullExpr ts = some (ts, [])))
    (hc : Always C e (fun ts => H.value ρ ts = cs)) (hB : Makes L cfg cs vs) (hi : inserted cs = is) :
    Stood C S L cfg H ρ p (c!"$(" ++ (e ++ c!")")) vs is ρ := by
  obtain ⟨te, e1, e2⟩ := code_reads he (go p c!"$(")
  obtain ⟨a1, a2, a3⟩ := ha _ _ e1
  refine stood_paren (C := C) (S := S) (L := L) (cfg := cfg) hH e2 (fun cur => .eval a1 a2 a3)
    (fills_eval H ρ te) ?_ ?_
  · rw [hc _ _ e1]; exact hB
  · rw [hc _ _ e1]; exact hi

theorem stood_literal (hH : Full H) {p : Place} {s v : Str} (hu : unquoted '"' s = some v) (hv : v ≠ []) :
    Stood C S L cfg H ρ p (c!"$(\"" ++ s ++ c!"\")") [v] [] ρ := by
  have := stood_paren (C := C) (S := S) (L := L) (cfg := cfg) (p := p) (is := []) hH
    ((readsAs_str (C := C) hu _).weaken (fun _ hr => hr.word)) (fun cur => Means.literal) (fills_literal H ρ hv)
    (makes_word L cfg hv) rfl
  simpa using this

theorem stood_scope (hH : Full H) {p : Place} {c : Char} {r e : Str} {cs vs is} (br : Bool)
    (hn : (c :: r).all nameChar = true) (hd : c.isDigit = false) (hk : S.keyword (c :: r) = false) (hu : c :: r ≠ ['_'])
    (he : Reads C e) (hc : Always C e (fun ts => H.scope ρ ts = cs)) (hB : Makes L cfg cs vs)
    (hi : inserted cs = is) : Stood C S L cfg H ρ p (c!"$(ref " ++ (c :: r ++ (bodyOf br e ++ c!")"))) vs is ρ := by
  rw [List.all_cons, Bool.and_eq_true] at hn
  have h1 := readsAs_name (C := C) (p := go p c!"$(ref ") (c := c) (w := r) hn.1 hn.2 hd
  obtain ⟨te, e1, e2⟩ := code_reads he (go (go (go p c!"$(ref ") (c :: r)) (if br then c!" {" else c!" =>"))
  have hb : ∃ us, ReadsAs C (go (go p c!"$(ref ") (c :: r)) (bodyOf br e) Halt us ∧
      ((∃ a1 a2 j, us = arrow a1 a2 j ++ te) ∨ ∃ a1, us = [.group a1 .brace te]) := by
    cases br with
    | true =>
      obtain ⟨cur, hc⟩ := readsAs_braces _ e2 Halt
      exact ⟨_, hc, .inr ⟨_, rfl⟩⟩
    | false =>
      obtain ⟨x, y, j, hc⟩ := readsAs_arrow _ e2
      exact ⟨_, hc, .inl ⟨_, _, _, rfl⟩⟩
  obtain ⟨us, b1, b2⟩ := hb
  have := stood_key (C := C) (S := S) (L := L) (cfg := cfg) (is := is) (n := fun cur => .scope cur true te) hH c!"ref" (by decide) (by decide) (p := p)
    (h1.append b1 (fun r _ => (body_halt br e r).breaks))
    (fun cur c' => by
      have := Means.scope (S := S) (cur := cur) (c := c') (c1 := ⟨C.pos (go p c!"$(ref "), C.pos (go (go p c!"$(ref ") (c :: r))⟩)
        (b := c :: r) (.inr hk) b2
      rw [decide_eq_true hu] at this
      exact this)
    (fills_scope H ρ te) (by rw [hc _ _ e1]; exact hB) (by rw [hc _ _ e1]; exact hi)
  simpa using this

/-! ## Rounds -/

theorem rounds_block (hQ : HomQuote L) {sp : Template.Sep} (hsp : sp.ok) {rounds : List Env} (hr : rounds ≠ [])
    {f : Env → List (Call ι)} {v : Env → List Str} (h : ∀ ρ' ∈ rounds, Template.BlockOf L cfg (f ρ') (v ρ')) :
    Template.BlockOf L cfg (Template.joinCalls sp.calls (rounds.map f)) (sp.lines (rounds.map v)) := by
  obtain ⟨a, as, rfl⟩ := List.exists_cons_of_ne_nil hr
  have := join_blocks L hQ cfg sp hsp (f a, v a) (as.map (fun ρ' => (f ρ', v ρ'))) (by
    intro q hq
    rcases List.mem_cons.1 hq with rfl | hq
    · exact h a (by simp)
    · obtain ⟨ρ', hρ, rfl⟩ := List.mem_map.1 hq
      exact h ρ' (by simp [hρ]))
  simpa [List.map_map, Function.comp_def] using this

theorem rounds_makes (hQ : HomQuote L) {rounds : List Env} {f : Env → List (Call ι)} {v : Env → List Str}
    (h : ∀ ρ' ∈ rounds, Makes L cfg (f ρ') (v ρ')) :
    Makes L cfg (rounds.flatMap f) ((Template.Sep.gap false).lines ((rounds.map v).filter (fun vs => !vs.isEmpty))) := by
  have e1 : (rounds.map v).filter (fun vs => !vs.isEmpty) = (rounds.filter (fun ρ' => !(v ρ').isEmpty)).map v := by
    rw [List.filter_map]; rfl
  have e2 : rounds.flatMap f = (rounds.filter (fun ρ' => !(v ρ').isEmpty)).flatMap f := by
    induction rounds with
    | nil => rfl
    | cons a rounds ih =>
      have ih := ih (fun ρ' hρ => h ρ' (by simp [hρ])) (by rw [List.filter_map]; rfl)
      rw [List.flatMap_cons, ih]
      rcases h a (by simp) with hB | ⟨h1, h2⟩
      · rw [List.filter_cons_of_pos (by simpa using block_lines_ne hB), List.flatMap_cons]
      · rw [List.filter_cons_of_neg (by simp [h2]), h1]; rfl
  have hj : ∀ xs : List Env, Template.joinCalls (Template.Sep.gap false).calls (xs.map f) = xs.flatMap f := by
    intro xs
    cases xs with
    | nil => rfl
    | cons x xs => rw [List.map_cons, join_flatMap, List.flatMap_map, List.flatMap_cons]; rfl
  rw [e1, e2]
  by_cases hr : rounds.filter (fun ρ' => !(v ρ').isEmpty) = []
  · rw [hr]
    exact .inr ⟨rfl, rfl⟩
  · refine .inl ?_
    have := rounds_block (L := L) (cfg := cfg) hQ (sp := .gap false) trivial hr (f := f) (v := v) (fun ρ' hρ => by
      obtain ⟨m1, m2⟩ := List.mem_filter.1 hρ
      rcases h ρ' m1 with hB | ⟨-, h2⟩
      · exact hB
      · rw [h2] at m2; cases m2)
    rw [hj] at this
    exact this

theorem inserted_join {sp : Template.Sep} {rounds : List Env} {f : Env → List (Call ι)} {i : Env → List ι}
    (h : ∀ ρ' ∈ rounds, inserted (f ρ') = i ρ') :
    inserted (Template.joinCalls sp.calls (rounds.map f)) = rounds.flatMap i := by
  have h0 : inserted (sp.calls (ι := ι)) = [] := by
    cases sp with
    | stack b => cases b <;> rfl
    | gap b => cases b <;> rfl
    | text a s b => cases a <;> cases b <;> rfl
  induction rounds with
  | nil => rfl
  | cons a rounds ih =>
    have ih := ih (fun ρ' hρ => h ρ' (by simp [hρ]))
    cases rounds with
    | nil => simp [Template.joinCalls, h a]
    | cons b rounds =>
      rw [List.map_cons, List.map_cons, Template.joinCalls, inserted_append, inserted_append, h0, h a (by simp), List.append_nil,
        List.flatMap_cons, ← ih]
      rfl

theorem inserted_flat (xs : List Env) (f : Env → List (Call ι)) : inserted (xs.flatMap f) = xs.flatMap (fun x => inserted (f x)) := by
  induction xs with
  | nil => rfl
  | cons x xs ih => rw [List.flatMap_cons, inserted_append, ih, List.flatMap_cons]

theorem flatMap_same {α β : Type} {xs : List α} {f g : α → List β} (h : ∀ x ∈ xs, f x = g x) : xs.flatMap f = xs.flatMap g := by
  induction xs with
  | nil => rfl
  | cons x xs ih => rw [List.flatMap_cons, List.flatMap_cons, h x (by simp), ih (fun y hy => h y (by simp [hy]))]

theorem letters_peek {sp : Template.Sep} {rounds : List Env} {f g : Env → List (Call ι)}
    (h : ∀ ρ' ∈ rounds, Template.letters ((g ρ').flatMap callItems) = Template.letters (sp.calls.flatMap (callItems (ι := ι)))) :
    Template.letters ((peekLoop f g rounds).flatMap callItems) =
      Template.letters ((Template.joinCalls sp.calls (rounds.map f)).flatMap callItems) := by
  rw [← peek_blocks]
  induction rounds with
  | nil => rfl
  | cons a rounds ih =>
    have ih := ih (fun ρ' hρ => h ρ' (by simp [hρ]))
    rw [peekLoop, peekLoop]
    simp only [List.flatMap_append, letters_append, ih]
    cases rounds with
    | nil => rfl
    | cons b rounds => simp [h a (by simp)]

theorem sep_ok {q : Str} {sp : Template.Sep} (h : IsSep q sp) : sp.ok := by
  cases h with
  | text a b hs => exact hs
  | _ => trivial

/-- Calls with the same letters. -/
theorem block_same {cs ds : List (Call ι)} {vs : List Str} (hQ : HomQuote L)
    (h : Template.letters (ds.flatMap callItems) = Template.letters (cs.flatMap callItems))
    (hB : Template.BlockOf L cfg cs vs) : Template.BlockOf L cfg ds vs :=
  ⟨cut_block hB.block h.symm, cut_uniform hB.uniform h.symm, by rw [← cut_vec L hQ cfg hB.uniform h.symm]; exact hB.lines⟩

theorem inserted_same {cs ds : List (Call ι)} (h : Template.letters (ds.flatMap callItems) = Template.letters (cs.flatMap callItems)) :
    inserted ds = inserted cs := by
  unfold inserted
  rw [← langs_letters, h, langs_letters]

theorem texts_same {p : Place} {b : Str} {rounds : List Env} {v : Env → List Str} {i : Env → List ι} (hr : rounds ≠ [])
    (h : ∀ ρ' ∈ rounds, ∃ ts ns r ss, Texted C S L cfg H ρ' p b (v ρ') (i ρ') ts ns r ss) :
    ∃ ts ns r ss, ∀ ρ' ∈ rounds, Texted C S L cfg H ρ' p b (v ρ') (i ρ') ts ns r ss := by
  obtain ⟨a, as, rfl⟩ := List.exists_cons_of_ne_nil hr
  obtain ⟨ts, ns, r, ss, ha⟩ := h a (by simp)
  refine ⟨ts, ns, r, ss, fun ρ' hρ => ?_⟩
  obtain ⟨ts', ns', r', ss', hT⟩ := h ρ' hρ
  obtain ⟨rfl, rfl, rfl, rfl⟩ := ha.same hT
  exact hT

theorem stood_loop (hH : Full H) {H1 : Host ι (List TT) Env} {ρ1 : Env} {p : Place} {pat e b : Str} (br : Bool) {rounds : List Env}
    {vs is vs1 is1} {ts ns r ss} (hp : Reads C pat) (hp' : Always C pat (Takes S.pat endsPat)) (he : IsExpr C S e)
    (hi : Always C pat (fun tp => Always C e (fun te => H.iter ρ tp te = rounds)))
    (hT0 : Texted C S L cfg H1 ρ1
      (go p ((c!"$(for " ++ (pat ++ (c!" in " ++ e))) ++ if br then c!" {" else c!" =>")) b vs1 is1 ts ns r ss)
    (hB : Makes L cfg (rounds.flatMap (fun ρ' => runBlock H ρ' ss)) vs)
    (hI : inserted (rounds.flatMap (fun ρ' => runBlock H ρ' ss)) = is) :
    Stood C S L cfg H ρ p (c!"$(for " ++ (pat ++ (c!" in " ++ (e ++ (bodyOf br b ++ c!")"))))) vs is ρ := by
  obtain ⟨tp, p1, p2⟩ := code_reads hp (go p c!"$(for ")
  obtain ⟨te, e1, e2⟩ := code_reads he.toReads (go (go (go p c!"$(for ") pat) c!" in ")
  have hrd := hT0.reads
  rw [go_append, go_append, go_append, go_append] at hrd
  obtain ⟨rb, b1, b2, b3, b4⟩ := body_reads br hrd hT0.means
  obtain ⟨ci, hci⟩ := readsAs_key (C := C) c!"in" (by decide) (by decide) (fun _ => True) ((go (go p c!"$(for ") pat).next ' ')
  have h3 := (readsAs_space (C := C) (go (go p c!"$(for ") pat) (fun _ => True)).append hci (fun _ _ => trivial)
  have hf := fills_loop H ρ tp te ns hT0.ink r ss hT0.quoted
  rw [hi _ _ p1 _ _ e1] at hf
  have := stood_key (C := C) (S := S) (L := L) (cfg := cfg) hH c!"for" (by decide) (by decide) (p := p)
    (p2.append (h3.append (e2.append b1 (fun r _ => body_halt br b r)) (fun _ _ => trivial)) (fun r _ => halt_space _))
    (fun cur c => Means.loop (c := c) (hp' _ _ p1 _ rfl) (he.takes _ _ e1 rb b3) b4 b2) hf hB hI
  simpa using this

theorem stood_joined (hH : Full H) {H1 : Host ι (List TT) Env} {ρ1 : Env} {p : Place} {pat e q b : Str} {sep : Template.Sep} (br : Bool)
    {rounds : List Env} {vs is vs1 is1} {ts ns r ss} (hp : Reads C pat) (hp' : Always C pat (Takes S.pat endsPat))
    (he : IsExpr C S e) (hi : Always C pat (fun tp => Always C e (fun te => H.iter ρ tp te = rounds))) (hs : IsSep q sep)
    (hT0 : Texted C S L cfg H1 ρ1
      (go p ((c!"$(for " ++ (pat ++ (c!" in " ++ (e ++ (c!" join (" ++ (q ++ c!")")))))) ++ if br then c!" {" else c!" =>"))
      b vs1 is1 ts ns r ss)
    (hB : ∀ cs : List (Call ι), (rounds = [] → cs = []) → Template.letters (cs.flatMap callItems) =
      Template.letters ((Template.joinCalls sep.calls (rounds.map (fun ρ' => runBlock H ρ' ss))).flatMap callItems) →
      Makes L cfg cs vs ∧ inserted cs = is) :
    Stood C S L cfg H ρ p (c!"$(for " ++ (pat ++ (c!" in " ++ (e ++ (c!" join (" ++ (q ++ (c!")" ++ (bodyOf br b ++ c!")")))))))) vs is ρ := by
  obtain ⟨tp, p1, p2⟩ := code_reads hp (go p c!"$(for ")
  obtain ⟨te, e1, e2⟩ := code_reads he.toReads (go (go (go p c!"$(for ") pat) c!" in ")
  have hrd := hT0.reads
  have e3 : go p ((c!"$(for " ++ (pat ++ (c!" in " ++ (e ++ (c!" join (" ++ (q ++ c!")")))))) ++ if br then c!" {" else c!" =>") =
      go (go (go (go (go (go (go p c!"$(for ") pat) c!" in ") e) c!" join ") ('(' :: (q ++ [')']))) (if br then c!" {" else c!" =>") := by
    rw [place_eq, place_eq, place_eq, place_eq, place_eq, place_eq]
    congr 1
    simp
  rw [e3] at hrd
  obtain ⟨rb, b1, b2, b3, b4⟩ := body_reads br hrd hT0.means
  obtain ⟨ci, hci⟩ := readsAs_key (C := C) c!"in" (by decide) (by decide) (fun _ => True) ((go (go p c!"$(for ") pat).next ' ')
  have h3 := (readsAs_space (C := C) (go (go p c!"$(for ") pat) (fun _ => True)).append hci (fun _ _ => trivial)
  obtain ⟨cj, hcj⟩ := readsAs_key (C := C) c!"join" (by decide) (by decide) (fun _ => True)
    ((go (go (go (go p c!"$(for ") pat) c!" in ") e).next ' ')
  have h4 := (readsAs_space (C := C) (go (go (go (go p c!"$(for ") pat) c!" in ") e) (fun _ => True)).append hcj (fun _ _ => trivial)
  have hsep : ∃ us ms r' ss', ReadsAs C ((go (go (go (go (go p c!"$(for ") pat) c!" in ") e) c!" join ").next '(') q Halt us ∧
      Means S (.nodes us ms) ∧ emptyText ms = false ∧
      Macro.quote (some ⟨C.pos (go (go (go (go (go p c!"$(for ") pat) c!" in ") e) c!" join "),
        C.pos (go (go (go (go (go (go p c!"$(for ") pat) c!" in ") e) c!" join ") ('(' :: (q ++ [')'])))⟩) ms = .ok (r', ss') ∧
      ∀ ρ', Template.letters ((runBlock H ρ' ss').flatMap callItems) = Template.letters (sep.calls.flatMap (callItems (ι := ι))) := by
    obtain ⟨us, ms, r', ss', s1, s2, s3, s4, s5⟩ := sep_told (C := C) (S := S) (ρ := ρ) L cfg hH hs
      (go (go (go (go (go p c!"$(for ") pat) c!" in ") e) c!" join ")
    refine ⟨us, ms, r', ss', s1, s2, s3, s4, fun ρ' => ?_⟩
    obtain ⟨us', ms', r'', ss'', t1, t2, t3, t4, t5⟩ := sep_told (C := C) (S := S) (ρ := ρ') L cfg hH hs
      (go (go (go (go (go p c!"$(for ") pat) c!" in ") e) c!" join ")
    have := readsAs_unique t1 s1 halt_nil halt_nil
    subst this
    have := means_unique t2 s2
    subst this
    rw [s4] at t4
    cases t4
    exact t5
  obtain ⟨us, ms, r', ss', s1, s2, s3, s4, s5⟩ := hsep
  have h5 := ReadsAs.group (C := C) .parenthesis s1 (fun r => halt_close r)
  have hf := fills_joined H ρ tp te ⟨C.pos (go (go (go (go (go p c!"$(for ") pat) c!" in ") e) c!" join "),
        C.pos (go (go (go (go (go (go p c!"$(for ") pat) c!" in ") e) c!" join ") ('(' :: (q ++ [')'])))⟩ ms ns hT0.ink s3 r r' ss ss'
    hT0.quoted s4
  rw [hi _ _ p1 _ _ e1] at hf
  have hl := letters_peek (sp := sep) (rounds := rounds) (f := fun ρ' => runBlock H ρ' ss)
    (g := fun ρ' => runBlock H (leave H ρ' ss) ss') (fun ρ' _ => s5 _)
  obtain ⟨hB1, hB2⟩ := hB _ (fun h => by rw [h]; rfl) hl
  have := stood_key (C := C) (S := S) (L := L) (cfg := cfg) hH c!"for" (by decide) (by decide) (p := p)
    (p2.append (h3.append (e2.append (h4.append (h5.append b1 (fun _ _ => trivial)) (fun _ _ => trivial))
      (fun r _ => halt_space _)) (fun _ _ => trivial)) (fun r _ => halt_space _))
    (fun cur c => Means.joined (c := c) (hp' _ _ p1 _ rfl) (he.takes _ _ e1 _ rfl) s2 b2) hf hB1 hB2
  simpa [opener, closer] using this

/-! ## Arms -/

theorem stood_select (hH : Full H) {p : Place} {e b : Str} {vs is res} (he : IsExpr C S e)
    (hb : ∀ q te, lex C q e = some te → ∃ ts as r out,
      Armed C S L cfg H ρ te (go p (c!"$(match " ++ (e ++ c!" {"))) b res ts as r out)
    (hres : (res = none ∧ vs = [] ∧ is = []) ∨ res = some (vs, is)) :
    Stood C S L cfg H ρ p (c!"$(match " ++ (e ++ (c!" {" ++ (b ++ c!"})")))) vs is ρ := by
  obtain ⟨te, e1, e2⟩ := code_reads he.toReads (go p c!"$(match ")
  obtain ⟨ts, as, r, out, hA⟩ := hb _ _ e1
  have hB : Makes L cfg (runArms H ρ te out) vs ∧ inserted (runArms H ρ te out) = is := by
    have h := hA.result
    rcases hres with ⟨rfl, rfl, rfl⟩ | rfl
    · have h : runArms H ρ te out = [] := h
      rw [h]
      exact ⟨.inr ⟨rfl, rfl⟩, rfl⟩
    · exact h
  have hr := hA.reads
  rw [go_append, go_append] at hr
  obtain ⟨c1, b1⟩ := readsAs_braces _ hr Halt
  have := stood_key (C := C) (S := S) (L := L) (cfg := cfg) hH c!"match" (by decide) (by decide) (p := p)
    (e2.append b1 (fun r _ => halt_space _))
    (fun cur c => Means.select (c := c) (he.takes _ _ e1 _ rfl) hA.means)
    (fills_match H ρ te as hA.ink r out hA.quoted) hB.1 hB.2
  simpa using this

theorem arms_cons {E : Type} {pat : E} {guard : Option E} {ns : List (Node E)} {as : List (Arm E)} {r r' : Bool} {ss : List (Stmt ι E)} {out}
    (h : Macro.quote none ns = .ok (r, ss)) (h' : arms as = .ok (r', out)) :
    arms (.mk pat guard none ns :: as) = .ok (r || r', (pat, guard, ss) :: out) := by
  obtain ⟨e, h1, h2⟩ := ok_bind (x := nodes (startEnc none) ns) (f := Enc.intoOutput) h
  rw [arms, h1, h']
  simp only [bind, Except.bind, h2]

/-- A comma that may be missing. -/
theorem readsAs_comma {p : Place} {rest : Str} {ts : List TT} (comma : Bool) (hc : begins isComma ts = false)
    (h : ReadsAs C (go p (if comma then [','] else [])) rest Halt ts) :
    ∃ us, ReadsAs C p ((if comma then [','] else []) ++ rest) Halt us ∧ sansComma us = ts ∧
      (comma = true → ∃ c, us = c :: ts ∧ isComma c = true) ∧ (comma = false → us = ts) := by
  cases comma with
  | false => exact ⟨ts, h, by rw [sansComma, hc]; rfl, (nomatch ·), fun _ => rfl⟩
  | true =>
    have h2 := readsAs_punct (C := C) (p := p) (c := ',') (by decide) (by decide) (by decide) (jointOf rest)
    exact ⟨_, h2.append h (fun r hr => joint_append hr rest), rfl, fun _ => ⟨_, rfl, rfl⟩, (nomatch ·)⟩

/-- The text of an arm and the arms behind it. -/
theorem arm_body {H1 H2 : Host ι (List TT) Env} {ρ1 ρ2 : Env} {p : Place} {b rest : Str} {te : List TT} {vs is res ts ns r ss ts' as r' out}
    (m : Casing) (hm : m.Cuts C b rest)
    (hb : Texted C S L cfg H1 ρ1 (go p m.before) b vs is ts ns r ss)
    (ha : Armed C S L cfg H2 ρ2 te (go p (m.before ++ (b ++ m.after))) rest res ts' as r' out) :
    ∃ x y j us, ReadsAs C p (m.before ++ (b ++ (m.after ++ rest))) Halt (arrow x y j ++ us) ∧
      ∀ {vs pat ws guard}, vs ≠ [] → S.patMulti vs = some (pat, ws) → Guarded S ws guard (arrow x y j ++ us) →
        Means S (.arms vs (.mk pat guard none ns :: as)) := by
  cases m with
  | braces comma =>
    have hr := ha.reads
    have e1 : go p (Casing.before (.braces comma) ++ (b ++ Casing.after (.braces comma))) =
        go (go (go p c!" =>") (c!" {" ++ (b ++ c!"}"))) (if comma then [','] else []) := by
      rw [place_eq, place_eq]; congr 1; simp [Casing.before, Casing.after]
    rw [e1] at hr
    obtain ⟨vs', v1, v2, -, -⟩ := readsAs_comma comma ha.comma hr
    have hb' := hb.reads
    rw [show go p (Casing.before (.braces comma)) = go (go p c!" =>") c!" {" from rfl] at hb'
    obtain ⟨c1, b1⟩ := readsAs_braces _ hb' (fun _ => True)
    obtain ⟨x, y, j, a1⟩ := readsAs_arrow _ (b1.append v1 (fun _ _ => trivial))
    refine ⟨x, y, j, _, by simpa [Casing.before, Casing.after] using a1, fun h1 h2 h3 => ?_⟩
    refine Means.armBlock h1 h2 h3 rfl hb.means ?_
    rw [v2]
    exact ha.means
  | line comma =>
    obtain ⟨hl, hc⟩ := hm
    have hl := hl _ _ (hb.reads.lex halt_nil)
    simp only [inLine, Bool.and_eq_true, Bool.not_eq_true'] at hl
    obtain ⟨⟨l1, l2⟩, l3⟩ := hl
    have hr := ha.reads
    have e1 : go p (Casing.before (.line comma) ++ (b ++ Casing.after (.line comma))) =
        go (go (go p c!" =>") b) (if comma then [','] else []) := by
      rw [place_eq, place_eq]; congr 1
    rw [e1] at hr
    obtain ⟨vs', v1, -, v3, v4⟩ := readsAs_comma comma ha.comma hr
    have hb' : ReadsAs C (go p c!" =>") b Halt ts := hb.reads
    cases comma with
    | false =>
      cases hc
      have hn : ts' = [] := readsAs_unique ha.reads (readsAs_nil _ Halt) halt_nil halt_nil
      obtain ⟨x, y, j, a1⟩ := readsAs_arrow _ hb'
      refine ⟨x, y, j, _, by simpa [Casing.before, Casing.after] using a1, fun h1 h2 h3 => ?_⟩
      refine Means.armLine h1 h2 h3 l2 l3 ?_ ?_
      · rw [List.takeWhile_eq_self_iff.2 (fun t ht => List.all_eq_true.1 l1 t ht)]
        exact hb.means
      · rw [List.dropWhile_eq_nil_iff.2 (fun t ht => List.all_eq_true.1 l1 t ht)]
        have := ha.means
        rw [hn] at this
        exact this
    | true =>
      obtain ⟨c, rfl, hcm⟩ := v3 rfl
      have hb2 := hb'.soft hc
      have a0 := hb2.append v1 (fun r _ => .inr rfl)
      obtain ⟨x, y, j, a1⟩ := readsAs_arrow _ a0
      refine ⟨x, y, j, _, by simpa [Casing.before, Casing.after] using a1, fun h1 h2 h3 => ?_⟩
      have hbr : begins isBrace [c] = false ∧ begins isParen [c] = false := by
        cases c <;> first | exact ⟨rfl, rfl⟩ | cases hcm
      refine Means.armLine h1 h2 h3 ?_ ?_ ?_ ?_
      · cases ts with
        | nil => exact hbr.1
        | cons t ts => exact l2
      · cases ts with
        | nil => exact hbr.2
        | cons t ts => exact l3
      · rw [List.takeWhile_append_of_pos (fun t ht => List.all_eq_true.1 l1 t ht), List.takeWhile_cons_of_neg (by simp [hcm]), List.append_nil]
        exact hb.means
      · rw [List.dropWhile_append_of_pos (fun t ht => List.all_eq_true.1 l1 t ht), List.dropWhile_cons_of_neg (by simp [hcm])]
        exact ha.means

theorem arm_cons {H1 H2 : Host ι (List TT) Env} {ρ1 ρ2 : Env} {p : Place} {w pat b rest : Str} {g : Option Str} {m : Casing} {te : List TT}
    {vs is res ts ns r ss ts' as r' out}
    (hw : w.all blankChar = true) (hp : IsArm C S pat g) (hm : m.Cuts C b rest)
    (hb : Texted C S L cfg H1 ρ1 (go p (w ++ (pat ++ (condOf g ++ m.before)))) b vs is ts ns r ss)
    (ha : Armed C S L cfg H2 ρ2 te (go p (w ++ (pat ++ (condOf g ++ (m.before ++ (b ++ m.after)))))) rest res ts' as r' out) :
    ∃ tp tg q us, lex C q pat = some tp ∧ (∀ P : Option (List TT) → Prop, Maybe C g P → P tg) ∧
      ReadsAs C p (w ++ (pat ++ (condOf g ++ (m.before ++ (b ++ (m.after ++ rest)))))) Halt us ∧
      Means S (.arms us (.mk tp tg none ns :: as)) ∧ begins isComma us = false ∧
      emptyTextArms (.mk tp tg none ns :: as) = false ∧
      arms (.mk tp tg none ns :: as) = .ok (r || r', (tp, tg, ss) :: out) := by
  obtain ⟨tp, p1, p2⟩ := code_reads hp.reads (go p w)
  obtain ⟨t1, t2, t3⟩ := hp.takes _ _ p1
  have e1 : go p (w ++ (pat ++ (condOf g ++ m.before))) = go (go (go (go p w) pat) (condOf g)) m.before := by
    rw [place_eq, place_eq, place_eq]
  have e2 : go p (w ++ (pat ++ (condOf g ++ (m.before ++ (b ++ m.after))))) =
      go (go (go (go p w) pat) (condOf g)) (m.before ++ (b ++ m.after)) := by
    rw [place_eq, place_eq, place_eq]
  rw [e1] at hb
  rw [e2] at ha
  obtain ⟨x, y, j, us, b1, b2⟩ := arm_body m hm hb ha
  have hhead : Halt (m.before ++ (b ++ (m.after ++ rest))) := by cases m <;> exact halt_space _
  have hcm : ∀ us, begins isComma (tp ++ us) = false := by
    intro us
    obtain ⟨t, tp', rfl⟩ := List.exists_cons_of_ne_nil t2
    exact t3
  have hink : ∀ tg, emptyTextArms (.mk tp tg none ns :: as) = false := by
    intro tg; rw [emptyTextArms, hb.ink, ha.ink]; rfl
  have hall : ∀ {tail : Str} {vs : List TT}, Halt tail → ReadsAs C (go (go p w) pat) tail Halt vs →
      ReadsAs C p (w ++ (pat ++ tail)) Halt (tp ++ vs) := by
    intro tail vs ht h
    have := (readsAs_blanks (C := C) hw (fun _ => True) p).append (p2.append h (fun r hr => ?_)) (fun _ _ => trivial)
    · simpa using this
    · cases tail with
      | nil => exact hr
      | cons c tail => exact fun d hd => ht d hd
  cases g with
  | none =>
    refine ⟨tp, none, _, _, p1, fun P h => h, hall hhead b1, ?_, hcm _, hink _, arms_cons hb.quoted ha.quoted⟩
    exact b2 (by simp [t2]) (t1 _ rfl) (.inl ⟨rfl, rfl, rfl⟩)
  | some g =>
    obtain ⟨g1, g2⟩ := hp.guard g rfl
    obtain ⟨tg, q1, q2⟩ := code_reads g1 (go (go (go p w) pat) c!" if ")
    have e3 : go (go (go p w) pat) (condOf (some g)) = go (go (go (go p w) pat) c!" if ") g := by
      rw [condOf, go_append]
    rw [e3] at b1
    obtain ⟨c, k1⟩ := readsAs_key (C := C) c!"if" (by decide) (by decide) (fun _ => True) ((go (go p w) pat).next ' ')
    have k2 := (readsAs_space (C := C) (go (go p w) pat) (fun _ => True)).append
      (k1.append (q2.append b1 (fun r hr => by cases m <;> exact halt_space _)) (fun _ _ => trivial)) (fun _ _ => trivial)
    have k3 : ReadsAs C (go (go p w) pat) (condOf (some g) ++ (m.before ++ (b ++ (m.after ++ rest)))) Halt
        (.ident c c!"if" :: (tg ++ (arrow x y j ++ us))) := by simpa [condOf] using k2
    refine ⟨tp, some tg, _, _, p1, fun P h => h _ _ q1, hall (halt_space _) k3, ?_, hcm _, hink _, arms_cons hb.quoted ha.quoted⟩
    refine b2 (by simp [t2]) (t1 _ rfl) (.inr ⟨c, _, _, rfl, g2 _ _ q1 _ rfl, rfl⟩)

/-! ## Columns -/

theorem held_of (l : Line ι) : ∀ (ρ : Env) (p : Place) (k : Nat) {xs : List (Nat × Str × List Str × List ι)} {ρ' : Env}, At C p k →
    (∀ c, Glyph.char c ∈ l → c ≠ '\n') → Row C S L cfg H ρ (Doc.holes k l ++ xs) ρ' →
    ∃ ρ₁, Held C S L cfg H ρ p l ρ₁ ∧ Row C S L cfg H ρ₁ xs ρ' := by
  induction l with
  | nil => intro ρ p k xs ρ' _ _ h; exact ⟨ρ, rfl, h⟩
  | cons y l ih =>
    intro ρ p k xs ρ' hk hc h
    cases y with
    | char c => exact ih ρ (p.next c) (k + 1) (hk.next (hc c (by simp))) (fun d hd => hc d (by simp [hd])) h
    | hole s vs is =>
      obtain ⟨ρ₁, h1, h2⟩ := h
      obtain ⟨ρ₂, h3, h4⟩ := ih ρ₁ (go p s) (Doc.behind k s) (hk.go s) (fun d hd => hc d (by simp [hd])) h2
      exact ⟨ρ₂, ⟨ρ₁, h1 p hk, h3⟩, h4⟩

theorem heldAll_of (ls : List (Line ι)) : ∀ (ρ : Env) (p : Place) (k : Nat) {ρ' : Env}, At C p k →
    (∀ l ∈ ls, ∀ c, Glyph.char c ∈ l → c ≠ '\n') →
    Row C S L cfg H ρ (Doc.holesOf k ls) ρ' → HeldAll C S L cfg H ρ p ls ρ' := by
  induction ls with
  | nil => intro ρ p k ρ' _ _ h; exact h
  | cons l ls ih =>
    intro ρ p k ρ' hk hs h
    obtain ⟨ρ₁, h1, h2⟩ := held_of l ρ p k hk (hs l (by simp)) h
    exact ⟨ρ₁, h1, ih ρ₁ _ 0 (.inr (by rw [go_append]; rfl)) (fun l hl => hs l (by simp [hl])) h2⟩

theorem heldOne_of (ls : List (Line ι)) : ∀ (ρ : Env) (p : Place) (k : Nat) {ρ' : Env}, C = .stable →
    (∀ l ∈ ls, ∀ c, Glyph.char c ∈ l → c ≠ '\n') →
    Row C S L cfg H ρ (Doc.holesOf k ls) ρ' → Held C S L cfg H ρ p (Doc.oneLine ls) ρ' := by
  induction ls with
  | nil => intro ρ p k ρ' _ _ h; exact h
  | cons l ls ih =>
    intro ρ p k ρ' hk hs h
    obtain ⟨ρ₁, h1, h2⟩ := held_of l ρ p k (.inl hk) (hs l (by simp)) h
    obtain ⟨s, e1, e2⟩ := flat_cons l ls
    rw [e1]
    refine held_join h1 ?_
    rcases e2 with ⟨rfl, rfl⟩ | ⟨-, rfl⟩
    · exact h2
    · exact ih ρ₁ ((go p (sourceLine l)).next ' ') 0 hk (fun l hl => hs l (by simp [hl])) h2

theorem seen_chars {ls : List (Line ι)} (h : ∀ l ∈ seenBy C ls, Sound l) : ∀ l ∈ ls, ∀ c, Glyph.char c ∈ l → c ≠ '\n' := by
  intro l hl c hc
  cases C with
  | nightly => exact ((h l hl).chars c hc).2
  | stable =>
    refine ((h (Doc.oneLine ls) (by simp [seenBy])).chars c ?_).2
    clear h
    induction ls with
    | nil => cases hl
    | cons m ls ih =>
      obtain ⟨s, e1, e2⟩ := flat_cons m ls
      rw [e1]
      rcases List.mem_cons.1 hl with rfl | hl
      · simp [hc]
      · rcases e2 with ⟨rfl, -⟩ | ⟨-, rfl⟩
        · cases hl
        · have := ih hl
          simp [this]

theorem heldIn_of {ls : List (Line ι)} {ρ : Env} {p : Place} {k : Nat} {ρ' : Env} (hk : At C p k) (hs : ∀ l ∈ seenBy C ls, Sound l)
    (h : Row C S L cfg H ρ (Doc.holesOf k ls) ρ') : HeldIn C S L cfg H ρ p ls ρ' :=
  ⟨heldAll_of ls ρ p k hk (seen_chars hs) h, fun hC => heldOne_of ls ρ p k hC (seen_chars hs) h⟩

/-- `$(let p = e)` -/
theorem stood_bind {p : Place} {pat e : Str} {ρ₁ : Env} (hp : Reads C pat) (hp' : Always C pat (Takes S.pat startsEq))
    (he : Reads C e) (he' : Always C e (fun te => S.expr te = some (te, [])))
    (hb : Always C pat (fun tp => Always C e (fun te => H.bind ρ tp te = ρ₁))) :
    Stood C S L cfg H ρ p (c!"$(let " ++ (pat ++ (c!" = " ++ (e ++ c!")")))) [] [] ρ₁ := by
  obtain ⟨c, k1⟩ := readsAs_key (C := C) c!"let" (by decide) (by decide) (fun _ => True) (go p c!"$(")
  obtain ⟨tp, p1, p2⟩ := code_reads hp (go p c!"$(let ")
  obtain ⟨te, e1, e2⟩ := code_reads he (go (go (go p c!"$(let ") pat) c!" = ")
  have q1 := readsAs_punct (C := C) (p := (go (go p c!"$(let ") pat).next ' ') (c := '=') (by decide) (by decide) (by decide) false
  have q2 := q1.append (readsAs_space (C := C) _ (fun _ => True)) (fun _ _ => rfl)
  have q3 := (readsAs_space (C := C) (go (go p c!"$(let ") pat) (fun _ => True)).append q2 (fun _ _ => trivial)
  have q4 := q3.append (b := e) (Q := Halt) e2 (fun _ _ => trivial)
  have q5 := k1.append (p2.append q4 (fun r _ => halt_space _)) (fun _ _ => trivial)
  have h1 := readsAs_punct (C := C) (p := p) (c := '$') (by decide) (by decide) (by decide) false
  have h2 := ReadsAs.group (C := C) (p := p.next '$') .parenthesis q5 (fun r => halt_close r)
  have h3 := h1.append h2 (fun r _ => rfl)
  have hA := acts_bind H ρ (cur := ⟨C.pos p, C.pos (go p (c!"$(let " ++ (pat ++ (c!" = " ++ (e ++ c!")")))))⟩) tp te
  rw [hb _ _ p1 _ _ e1] at hA
  refine ⟨⟨_, _, rfl, .inl rfl⟩, _, [], hA, rfl, .inr ⟨rfl, rfl⟩, rfl, fun j => ?_⟩
  have e0 : c!"$(let " ++ (pat ++ (c!" = " ++ (e ++ c!")"))) =
      ['$'] ++ ('(' :: (c!"let" ++ [' '] ++ (pat ++ ([' '] ++ (['='] ++ [' ']) ++ e)) ++ [')'])) := by simp
  rw [e0]
  refine ⟨_, h3.weaken (fun _ _ => trivial), fun us ms h => ?_⟩
  have hm := fun cur c1 => Means.bind (S := S) (cur := cur) (c := c) (c1 := c1) (j := false) (hp' _ _ p1 _ rfl) (he' _ _ e1)
  exact .paren (hm _ _) h

/-! ## All rules -/

theorem told_good (hQ : HomQuote L) {f : Doc.Form ι Env} (h : Told C S L cfg H ρ f) : Full H → Good C S L cfg H ρ f := by
  induction h with
  | name c r hn hw hd hk hv =>
    intro hH p _
    subst hn
    obtain ⟨cs, v1, v2, v3⟩ := hv
    exact stood_name hH hw hd hk v1 v2 v3
  | dollar => intro hH p _; exact stood_dollar hH
  | char hu => intro hH p _; exact stood_char hu
  | string hu hv hB => intro hH p _; exact stood_string hH hu hv hB
  | literal hu hv => intro hH p _; exact stood_literal hH hu hv
  | value he ha hc =>
    intro hH p _
    obtain ⟨cs, c1, c2, c3⟩ := hc
    exact stood_value hH he ha c1 c2 c3
  | scope br c r hn hw hd hk hu he hc =>
    intro hH p _
    subst hn
    obtain ⟨cs, c1, c2, c3⟩ := hc
    exact stood_scope hH br hw hd hk hu he c1 c2 c3
  | ifThen br ρ' hc ht _ ih =>
    intro hH p hp
    obtain ⟨ts, ns, r, ss, h1⟩ := ih hH _ (hp.go _)
    refine stood_if hH br hc h1 (fun te ⟨q, hq⟩ => ?_)
    rw [ht q te hq]
    exact ⟨h1.block, h1.imports⟩
  | ifNot br hc ht _ ih =>
    intro hH p hp
    obtain ⟨ts, ns, r, ss, h1⟩ := ih (full_idle _) _ (hp.go _)
    refine stood_if hH br hc h1 (fun te ⟨q, hq⟩ => ?_)
    rw [ht q te hq]
    exact ⟨.inr ⟨rfl, rfl⟩, rfl⟩
  | @ifElse H ρ k c b d vs is vs' is' ρ' hc ht _ _ ih ih' =>
    intro hH p hp
    obtain ⟨ts, ns, r, ss, h1⟩ := ih hH (go p ((c!"$(if " ++ c) ++ c!" {")) (hp.go _)
    obtain ⟨ts', ns', r', ss', h2⟩ := ih' (full_idle _) (go p (c!"$(if " ++ (c ++ (c!" {" ++ (b ++ c!"} else {"))))) (hp.go _)
    refine stood_ifElse hH hc h1 h2 (fun te ⟨q, hq⟩ => ?_)
    rw [ht q te hq]
    exact ⟨h1.block, h1.imports⟩
  | @orElse H ρ k c b d vs is vs' is' hc ht _ _ ih ih' =>
    intro hH p hp
    obtain ⟨ts, ns, r, ss, h1⟩ := ih (full_idle _) (go p ((c!"$(if " ++ c) ++ c!" {")) (hp.go _)
    obtain ⟨ts', ns', r', ss', h2⟩ := ih' hH (go p (c!"$(if " ++ (c ++ (c!" {" ++ (b ++ c!"} else {"))))) (hp.go _)
    refine stood_ifElse hH hc h1 h2 (fun te ⟨q, hq⟩ => ?_)
    rw [ht q te hq]
    exact ⟨h2.block, h2.imports⟩
  | loop br rounds v i hr hp hp' he hi _ ih =>
    intro hH p hpc
    obtain ⟨ts, ns, r, ss, hT⟩ := texts_same hr (fun ρ' hρ => ih ρ' hρ hH (go p _) (hpc.go _))
    obtain ⟨ρ0, hρ0⟩ := List.exists_mem_of_ne_nil _ hr
    refine stood_loop hH br hp hp' he hi (hT ρ0 hρ0) (rounds_makes hQ (fun ρ' hρ => (hT ρ' hρ).block)) ?_
    rw [inserted_flat]
    exact flatMap_same (fun ρ' hρ => (hT ρ' hρ).imports)
  | noLoop br hp hp' he hi _ ih =>
    intro hH p hpc
    obtain ⟨ts, ns, r, ss, hT⟩ := ih (full_idle _) (go p _) (hpc.go _)
    exact stood_loop hH br hp hp' he hi hT (.inr ⟨rfl, rfl⟩) rfl
  | joined br rounds v i hr hp hp' he hi hs hne _ ih =>
    intro hH p hpc
    obtain ⟨ts, ns, r, ss, hT⟩ := texts_same hr (fun ρ' hρ => ih ρ' hρ hH (go p _) (hpc.go _))
    obtain ⟨ρ0, hρ0⟩ := List.exists_mem_of_ne_nil _ hr
    refine stood_joined hH br hp hp' he hi hs (hT ρ0 hρ0) (fun cs _ hl => ⟨.inl ?_, ?_⟩)
    · refine block_same hQ hl (rounds_block (L := L) (cfg := cfg) hQ (sep_ok hs) hr (fun ρ' hρ => ?_))
      rcases (hT ρ' hρ).block with hB | hB
      · exact hB
      · exact absurd hB.2 (hne ρ' hρ)
    · exact (inserted_same hl).trans (inserted_join (fun ρ' hρ => (hT ρ' hρ).imports))
  | noJoined br hp hp' he hi hs _ ih =>
    intro hH p hpc
    obtain ⟨ts, ns, r, ss, hT⟩ := ih (full_idle _) (go p _) (hpc.go _)
    exact stood_joined hH br hp hp' he hi hs hT (fun cs hc _ => by rw [hc rfl]; exact ⟨.inr ⟨rfl, rfl⟩, rfl⟩)
  | select he _ ih =>
    intro hH p hp
    exact stood_select hH he (fun q te hq => ih hH _ (hp.go _) q te hq) (.inr rfl)
  | noMatch he _ ih =>
    intro hH p hp
    exact stood_select hH he (fun q te hq => ih hH _ (hp.go _) q te hq) (.inl ⟨rfl, rfl, rfl⟩)
  | noArms hb =>
    intro hH p _ q te _
    exact ⟨[], [], _, _, readsAs_blanks hb _ _, .noArms, rfl, rfl, rfl, rfl⟩
  | @skipArm H ρ e k w pt g b rest vs is res m hw hp hm hk _ _ ih ih' =>
    intro hH p hpc q te hte
    obtain ⟨ts, ns, r, ss, h1⟩ := ih (full_idle _) (go p _) (hpc.go _)
    obtain ⟨ts', as, r', out, h2⟩ := ih' hH (go p _) (hpc.go _) q te hte
    obtain ⟨tp, tg, q', us, a1, a0, a2, a3, a4, a5, a6⟩ := arm_cons hw hp hm h1 h2
    have hpk := a0 _ (hk q te hte q' tp a1)
    have : runArms H ρ te ((tp, tg, ss) :: out) = runArms H ρ te out := by rw [runArms]; simp only [hpk]
    refine ⟨us, _, _, _, a2, a3, a4, a5, a6, ?_⟩
    have h3 := h2.result
    rw [← this] at h3
    exact h3
  | @takeArm H ρ e k w pt g b rest vs is res m ρ' hw hp hm hk _ _ ih ih' =>
    intro hH p hpc q te hte
    obtain ⟨ts, ns, r, ss, h1⟩ := ih hH (go p _) (hpc.go _)
    obtain ⟨ts', as, r', out, h2⟩ := ih' (full_idle _) (go p _) (hpc.go _) q te hte
    obtain ⟨tp, tg, q', us, a1, a0, a2, a3, a4, a5, a6⟩ := arm_cons hw hp hm h1 h2
    have hpk := a0 _ (hk q te hte q' tp a1)
    have : runArms H ρ te ((tp, tg, ss) :: out) = runBlock H ρ' ss := by rw [runArms]; simp only [hpk]; rfl
    refine ⟨us, _, _, _, a2, a3, a4, a5, a6, ?_⟩
    show Makes L cfg (runArms H ρ te ((tp, tg, ss) :: out)) _ ∧ inserted (runArms H ρ te ((tp, tg, ss) :: out)) = _
    rw [this]
    exact ⟨h1.block, h1.imports⟩
  | noHoles => intro _; rfl
  | nextHole _ _ ih ih' => intro hH; exact ⟨_, ih hH, ih' hH⟩
  | bind ρ₁ hp hp' he he' hb _ ih => intro hH; exact ⟨ρ₁, fun q _ => stood_bind hp hp' he he' hb, ih hH⟩
  | @text H ρ k ρ' ls hf hl hfr _ ih =>
    intro hH p hp
    obtain ⟨ts, ns, r, ss, hM⟩ := text_meant (S := S) (cfg := cfg) (ρ := ρ) hH.value hH.scope hQ hf hp
      (heldIn_of hp hf.sound (ih hH))
    refine ⟨ts, ns, r, ss, hM.reads, hM.means, hM.ink, hM.quoted, .inl ⟨hM.block hl ?_, hM.uniform, hM.lines⟩, ?_⟩
    · rw [framed, seen_things]; exact hfr
    · rw [hM.imports, seen_imports]
  | @noText H ρ k ρ' ls hsd h1 h2 _ ih =>
    intro hH p hp
    obtain ⟨ts, ns, r, ss, m1, m2, m3, m4, m6, m7⟩ := none_meant (S := S) (cfg := cfg) (ρ := ρ) hH.value hH.scope hsd h1 h2
      (heldIn_of hp hsd (ih hH))
    exact ⟨ts, ns, r, ss, m1, m2, m3, m4, .inr ⟨m6, rfl⟩, by rw [m6, m7]; rfl⟩
  | str bits ho hc hE _ ih =>
    intro hH p hp
    obtain ⟨ts, ps, h⟩ := ih hH _ (hp.go _)
    exact stood_str hQ ho hc hE h
  | noParts => intro _ p _; exact ⟨_, _, parted_nil p⟩
  | spacePart _ ih =>
    intro hH p hp
    obtain ⟨ts, ps, h⟩ := ih hH (p.next ' ') (hp.next (by decide))
    exact ⟨_, _, parted_space h⟩
  | wordPart hw hn hd hr hs _ ih =>
    intro hH p hp
    obtain ⟨ts, ps, h⟩ := ih hH _ (hp.go _)
    exact parted_word h hw hn hd hr hs
  | @punctPart H ρ k c r bits is hc hr hs _ ih =>
    intro hH p hp
    obtain ⟨ts, ps, h⟩ := ih hH (p.next c) (hp.next (by rintro rfl; cases hc))
    exact parted_punct h hc hr hs
  | quotePart hu hr hs _ ih =>
    intro hH p hp
    obtain ⟨ts, ps, h⟩ := ih hH _ (hp.go _)
    exact parted_quote h hu hr hs
  | charPart hu hr hs _ ih =>
    intro hH p hp
    obtain ⟨ts, ps, h⟩ := ih hH _ (hp.go _)
    exact parted_char h hu hr hs
  | dollarPart _ ih =>
    intro hH p hp
    obtain ⟨ts, ps, h⟩ := ih hH _ (hp.go _)
    exact parted_dollar h
  | constPart hu hv _ ih =>
    intro hH p hp
    obtain ⟨ts, ps, h⟩ := ih hH _ (hp.go _)
    exact parted_const h hu hv
  | rawPart it he ha hv hi _ ih =>
    intro hH p hp
    obtain ⟨ts, ps, h⟩ := ih hH _ (hp.go _)
    exact parted_raw it he ha hv hi h
  | namePart c w hn hw hd hk hr _ ih =>
    intro hH p hp
    subst hn
    obtain ⟨ts, ps, h⟩ := ih hH _ (hp.go _)
    exact parted_name h hw hd hk hr
  | codePart l hf hfr hn h1 h2 _ _ ih ih' =>
    intro hH p hp
    obtain ⟨ts, ps, h⟩ := ih' hH _ (hp.go _)
    have hseen : seenBy C [l] = [l] := by cases C <;> rfl
    have hsd := hf.sound
    rw [← hseen] at hsd
    exact parted_code hH hQ hf hp hfr hn h1 h2 (heldIn_of (hp.go _) hsd (ih hH)) h

end

end Genco.Proofs.DocFile
