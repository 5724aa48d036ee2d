import Verif.Proofs.Reflow
import Verif.Proofs.MacroParse

/-!
# The same tokens in other places are read as the same macro
-/

set_option autoImplicit false

namespace Genco.Spec.Reflow

open Genco.Macro MacroFile

variable {ι E E' Env : Type}

/-! ## Nodes without any place -/

section Blank

variable (g : E → E')

mutual

def blank : List (Node E) → List (Node E')
  | [] => []
  | n :: ns => blankNode n :: blank ns

def blankNode : Node E → Node E'
  | .tree _ text => .tree nowhere text
  | .escape _ => .escape nowhere
  | .str _ _ ps => .str nowhere nowhere (blankParts ps)
  | .control _ k => .control nowhere k
  | .quoted _ s => .quoted nowhere s
  | .literal _ s => .literal nowhere s
  | .eval _ e => .eval nowhere (g e)
  | .scope _ bound content => .scope nowhere bound (g content)
  | .loop _ pat iter body => .loop nowhere (g pat) (g iter) (blank body)
  | .joined _ pat iter _ sep body => .joined nowhere (g pat) (g iter) nowhere (blank sep) (blank body)
  | .ifThen _ c t => .ifThen nowhere (g c) (blank t)
  | .ifElse _ c t e => .ifElse nowhere (g c) (blank t) (blank e)
  | .select _ e arms => .select nowhere (g e) (blankArms arms)
  | .bind _ pat e => .bind nowhere (g pat) (g e)
  | .group _ d content => .group nowhere d (blank content)

def blankArms : List (Arm E) → List (Arm E')
  | [] => []
  | .mk pat guard _ body :: as => .mk (g pat) (guard.map g) none (blank body) :: blankArms as

def blankParts : List (Part E) → List (Part E')
  | [] => []
  | p :: ps => blankPart p :: blankParts ps

def blankPart : Part E → Part E'
  | .dollar _ => .dollar nowhere
  | .constant _ s => .constant nowhere s
  | .raw _ e => .raw nowhere (g e)
  | .ident _ name => .ident nowhere name
  | .stream _ _ content => .stream nowhere nowhere (blank content)
  | .tt _ text => .tt nowhere text

end

end Blank

mutual

/-- The widths of gaps are put back. -/
def fill : List (Node E) → List Nat → List (Node E) × List Nat
  | [], w => ([], w)
  | n :: ns, w => (((fillNode n w).1 :: (fill ns (fillNode n w).2).1), (fill ns (fillNode n w).2).2)

def fillNode : Node E → List Nat → Node E × List Nat
  | .str c _ ps, w => (.str c ⟨⟨0, 0⟩, ⟨0, (fillParts ps w).2.1 + 2⟩⟩ (fillParts ps w).1, (fillParts ps w).2.2)
  | .loop c p i b, w => (.loop c p i (fill b w).1, (fill b w).2)
  | .joined c p i k s b, w => (.joined c p i k (fill s w).1 (fill b (fill s w).2).1, (fill b (fill s w).2).2)
  | .ifThen c e t, w => (.ifThen c e (fill t w).1, (fill t w).2)
  | .ifElse c e t f, w => (.ifElse c e (fill t w).1 (fill f (fill t w).2).1, (fill f (fill t w).2).2)
  | .select c e as, w => (.select c e (fillArms as w).1, (fillArms as w).2)
  | .group c d ns, w => (.group c d (fill ns w).1, (fill ns w).2)
  | n, w => (n, w)

def fillArms : List (Arm E) → List Nat → List (Arm E) × List Nat
  | [], w => ([], w)
  | .mk p q c b :: as, w => (.mk p q c (fill b w).1 :: (fillArms as (fill b w).2).1, (fillArms as (fill b w).2).2)

def fillParts : List (Part E) → List Nat → List (Part E) × Nat × List Nat
  | [], w => ([], w.headD 0, w.tail)
  | p :: ps, w =>
    ((fillPart p w).1 :: (fillParts ps (fillPart p w).2).1, (fillParts ps (fillPart p w).2).2)

def fillPart : Part E → List Nat → Part E × List Nat
  | .dollar _, w => (.dollar (behind (w.headD 0)), w.tail)
  | .constant _ s, w => (.constant (behind (w.headD 0)) s, w.tail)
  | .raw _ e, w => (.raw (behind (w.headD 0)) e, w.tail)
  | .ident _ n, w => (.ident (behind (w.headD 0)) n, w.tail)
  | .stream _ c ns, w => (.stream (behind (w.headD 0)) c (fill ns w.tail).1, (fill ns w.tail).2)
  | .tt _ s, w => (.tt (behind (w.headD 0)) s, w.tail)

end

section Fill

variable (g : E → E')

mutual

theorem fill_blank : ∀ (ns : List (Node E)) (w : List Nat), fill (blank g ns) (gaps ns ++ w) = (bones g ns, w)
  | [], w => by simp [blank, gaps, fill, bones]
  | n :: ns, w => by
    simp only [blank, gaps, fill, bones, List.append_assoc, fill_node n, fill_blank ns]

theorem fill_node : ∀ (n : Node E) (w : List Nat), fillNode (blankNode g n) (gapsNode n ++ w) = (bonesNode g n, w)
  | .tree _ text, w => by simp [blankNode, gapsNode, fillNode, bonesNode]
  | .escape _, w => by simp [blankNode, gapsNode, fillNode, bonesNode]
  | .str _ paren ps, w => by
    simp only [blankNode, gapsNode, fillNode, bonesNode, fill_parts (inner paren).1 (inner paren).2 ps]
  | .control _ k, w => by simp [blankNode, gapsNode, fillNode, bonesNode]
  | .quoted _ s, w => by simp [blankNode, gapsNode, fillNode, bonesNode]
  | .literal _ s, w => by simp [blankNode, gapsNode, fillNode, bonesNode]
  | .eval _ e, w => by simp [blankNode, gapsNode, fillNode, bonesNode]
  | .scope _ b content, w => by simp [blankNode, gapsNode, fillNode, bonesNode]
  | .loop _ pat iter body, w => by simp only [blankNode, gapsNode, fillNode, bonesNode, fill_blank body]
  | .joined _ pat iter _ sep body, w => by
    simp only [blankNode, gapsNode, fillNode, bonesNode, List.append_assoc, fill_blank sep, fill_blank body]
  | .ifThen _ c t, w => by simp only [blankNode, gapsNode, fillNode, bonesNode, fill_blank t]
  | .ifElse _ c t e, w => by
    simp only [blankNode, gapsNode, fillNode, bonesNode, List.append_assoc, fill_blank t, fill_blank e]
  | .select _ e arms, w => by simp only [blankNode, gapsNode, fillNode, bonesNode, fill_arms arms]
  | .bind _ pat e, w => by simp [blankNode, gapsNode, fillNode, bonesNode]
  | .group _ d content, w => by simp only [blankNode, gapsNode, fillNode, bonesNode, fill_blank content]

theorem fill_arms : ∀ (as : List (Arm E)) (w : List Nat), fillArms (blankArms g as) (gapsArms as ++ w) = (bonesArms g as, w)
  | [], w => by simp [blankArms, gapsArms, fillArms, bonesArms]
  | .mk p q c b :: as, w => by
    simp only [blankArms, gapsArms, fillArms, bonesArms, List.append_assoc, fill_blank b, fill_arms as]

theorem fill_parts (stop close : Pos) : ∀ (ps : List (Part E)) (w : List Nat),
    fillParts (blankParts g ps) (gapsParts stop close ps ++ w) = (bonesParts g stop ps, lastGap stop close ps, w)
  | [], w => by simp [blankParts, gapsParts, fillParts, bonesParts, lastGap]
  | p :: ps, w => by
    have h := fill_part ((placeOf p).start.column - stop.column) p
    simp only [blankParts, gapsParts, fillParts, bonesParts, lastGap, List.append_assoc, List.cons_append, h,
      fill_parts (placeOf p).stop close ps]

theorem fill_part (gap : Nat) : ∀ (p : Part E) (w : List Nat),
    fillPart (blankPart g p) (gap :: (gapsPart p ++ w)) = (bonesPart g gap p, w)
  | .dollar _, w => by simp [blankPart, gapsPart, fillPart, bonesPart]
  | .constant _ s, w => by simp [blankPart, gapsPart, fillPart, bonesPart]
  | .raw _ e, w => by simp [blankPart, gapsPart, fillPart, bonesPart]
  | .ident _ n, w => by simp [blankPart, gapsPart, fillPart, bonesPart]
  | .stream _ c ns, w => by
    simp only [blankPart, gapsPart, fillPart, bonesPart, List.headD_cons, List.tail_cons, fill_blank ns]
  | .tt _ s, w => by simp [blankPart, gapsPart, fillPart, bonesPart]

end

/-- Nodes without places, and the widths of gaps in strings, are all that matters. -/
theorem alike_of_blank {ns ns' : List (Node E)} (h : blank g ns = blank g ns') (hg : gaps ns = gaps ns') : Alike g ns ns' := by
  have h1 := fill_blank g ns []
  have h2 := fill_blank g ns' []
  rw [h, hg, h2] at h1
  exact (congrArg Prod.fst h1).symm

end Fill

/-! ## Tokens without places -/

mutual

theorem words_tokensOf : ∀ ts : List TT, wordsAll (tokensOf ts) = wordsAll ts
  | [] => by simp [tokensOf, wordsAll]
  | t :: ts => by simp only [tokensOf, wordsAll, words_token t, words_tokensOf ts]

theorem words_token : ∀ t : TT, (token t).words = t.words
  | .ident _ _ => by simp [token, TT.words]
  | .punct _ _ _ => by simp [token, TT.words]
  | .str _ _ _ => by simp [token, TT.words]
  | .char _ _ _ => by simp [token, TT.words]
  | .lit _ _ => by simp [token, TT.words]
  | .group _ d content => by simp only [token, TT.words, words_tokensOf content]

end

theorem tokensOf_map (ts : List TT) : tokensOf ts = ts.map token := by
  induction ts with
  | nil => simp [tokensOf]
  | cons t ts ih => simp [tokensOf, ih]

theorem of_nil {ts' : List TT} (h : tokensOf ts' = tokensOf []) : ts' = [] := by
  cases ts' with
  | nil => rfl
  | cons t r => simp [tokensOf] at h

theorem of_cons {ts' : List TT} {t : TT} {r : List TT} (h : tokensOf ts' = tokensOf (t :: r)) :
    ∃ t' r', ts' = t' :: r' ∧ token t' = token t ∧ tokensOf r' = tokensOf r := by
  cases ts' with
  | nil => simp [tokensOf] at h
  | cons t' r' =>
    simp only [tokensOf, List.cons.injEq] at h
    exact ⟨t', r', rfl, h.1, h.2⟩

theorem of_ident {t' : TT} {c : Cur} {n : Str} (h : token t' = token (.ident c n)) : ∃ c', t' = .ident c' n := by
  cases t' <;> simp [token] at h
  exact ⟨_, by rw [h]⟩

theorem of_punct {t' : TT} {c : Cur} {ch : Char} {j : Bool} (h : token t' = token (.punct c ch j)) :
    ∃ c', t' = .punct c' ch j := by
  cases t' <;> simp [token] at h
  exact ⟨_, by rw [h.1, h.2]⟩

theorem of_str {t' : TT} {c : Cur} {v x : Str} (h : token t' = token (.str c v x)) : ∃ c', t' = .str c' v x := by
  cases t' <;> simp [token] at h
  exact ⟨_, by rw [h.1, h.2]⟩

theorem of_char {t' : TT} {c : Cur} {v : Char} {x : Str} (h : token t' = token (.char c v x)) : ∃ c', t' = .char c' v x := by
  cases t' <;> simp [token] at h
  exact ⟨_, by rw [h.1, h.2]⟩

theorem of_group {t' : TT} {c : Cur} {d : Delimiter} {ts : List TT} (h : token t' = token (.group c d ts)) :
    ∃ c' ts', t' = .group c' d ts' ∧ tokensOf ts' = tokensOf ts := by
  cases t' <;> simp [token] at h
  exact ⟨_, _, by rw [h.1], h.2⟩

/-- A property of tokens that does not depend on places. -/
def Placeless (f : TT → Bool) : Prop := ∀ t, f (token t) = f t

theorem begins_congr {f : TT → Bool} (hf : Placeless f) {ts ts' : List TT} (h : tokensOf ts' = tokensOf ts) :
    begins f ts' = begins f ts := by
  have key : ∀ us, begins f us = begins f (tokensOf us) := by
    intro us
    cases us with
    | nil => simp [tokensOf]
    | cons t r => simp [begins, tokensOf, hf t]
  rw [key, h, ← key]

theorem placeless_paren : Placeless isParen := by intro t; cases t <;> simp [token, isParen]
theorem placeless_brace : Placeless isBrace := by intro t; cases t <;> simp [token, isBrace]
theorem placeless_comma : Placeless isComma := by intro t; cases t <;> simp [token, isComma]
theorem placeless_word (w : String) : Placeless (isWord w) := by intro t; cases t <;> simp [token, isWord]
theorem placeless_lead : Placeless isLead := by intro t; simp only [isLead, placeless_word _ t]

theorem alone_congr {S : Syn} {ts ts' : List TT} (h : tokensOf ts' = tokensOf ts) (ha : Alone S ts) : Alone S ts' := by
  cases ts with
  | nil => rw [of_nil h]; trivial
  | cons t r =>
    replace h := of_cons h
    obtain ⟨t', r', rfl, ht, -⟩ := h
    cases t <;> cases t' <;> simp [token] at ht <;> simp_all [Alone]

theorem wordOf_congr {t t' : TT} (h : token t' = token t) : wordOf t' = wordOf t := by
  cases t <;> cases t' <;> simp [token] at h <;> simp [wordOf, h]

theorem take_congr {f : TT → Bool} (hf : Placeless f) (ts : List TT) : tokensOf (ts.takeWhile f) = (tokensOf ts).takeWhile f := by
  induction ts with
  | nil => simp [tokensOf]
  | cons t r ih => simp only [tokensOf, List.takeWhile_cons, hf t]; split <;> simp [tokensOf, ih]

theorem drop_congr {f : TT → Bool} (hf : Placeless f) (ts : List TT) : tokensOf (ts.dropWhile f) = (tokensOf ts).dropWhile f := by
  induction ts with
  | nil => simp [tokensOf]
  | cons t r ih => simp only [tokensOf, List.dropWhile_cons, hf t]; split <;> simp [tokensOf, ih]

theorem tail_congr (ts : List TT) : tokensOf ts.tail = (tokensOf ts).tail := by
  cases ts <;> simp [tokensOf]

theorem sans_congr {ts ts' : List TT} (h : tokensOf ts' = tokensOf ts) : tokensOf (sansComma ts') = tokensOf (sansComma ts) := by
  unfold sansComma
  rw [begins_congr placeless_comma h]
  split
  · rw [tail_congr, tail_congr, h]
  · exact h

/-- What a blind parser does with the same tokens. -/
theorem blind_congr {f : List TT → Option (List TT × List TT)}
    (hf : ∀ ts, f (tokensOf ts) = (f ts).map fun p => (tokensOf p.1, tokensOf p.2)) {ts ts' e r : List TT}
    (h : tokensOf ts' = tokensOf ts) (hp : f ts = some (e, r)) :
    ∃ e' r', f ts' = some (e', r') ∧ tokensOf e' = tokensOf e ∧ tokensOf r' = tokensOf r := by
  have h1 := hf ts
  have h2 := hf ts'
  rw [h, h1, hp] at h2
  obtain ⟨⟨e', r'⟩, hp', he⟩ := Option.map_eq_some_iff.1 h2.symm
  exact ⟨e', r', hp', (Prod.ext_iff.1 he).1, (Prod.ext_iff.1 he).2⟩

theorem guarded_congr {S : Syn} (hS : Blind S) {us us' rest : List TT} {guard : Option (List TT)}
    (h : tokensOf us' = tokensOf us) (hg : Guarded S us guard rest) :
    ∃ guard' rest', Guarded S us' guard' rest' ∧ guard'.map tokensOf = guard.map tokensOf ∧ tokensOf rest' = tokensOf rest := by
  rcases hg with ⟨hb, rfl, rfl⟩ | ⟨c, vs, e, rfl, he, rfl⟩
  · exact ⟨none, us', .inl ⟨(begins_congr (placeless_word _) h).trans hb, rfl, rfl⟩, rfl, h⟩
  · replace h := of_cons h
    obtain ⟨t', vs', rfl, ht, hv⟩ := h
    obtain ⟨c', rfl⟩ := of_ident ht
    obtain ⟨e', r', he', h1, h2⟩ := blind_congr hS.fullExpr hv he
    exact ⟨some e', r', .inr ⟨c', vs', e', rfl, he', rfl⟩, congrArg some h1, h2⟩

theorem not_str {ts ts' : List TT} (h : tokensOf ts' = tokensOf ts) (hn : ∀ c s text, ts ≠ [.str c s text]) :
    ∀ c s text, ts' ≠ [.str c s text] := by
  rintro c s text rfl
  obtain ⟨t, r, rfl, ht, hr⟩ := of_cons h.symm
  obtain ⟨c', rfl⟩ := of_str ht
  rw [of_nil hr] at hn
  exact hn _ _ _ rfl

theorem arrow_congr {a b : Cur} {j : Bool} {r ts' : List TT} (h : tokensOf ts' = tokensOf (arrow a b j ++ r)) :
    ∃ a' b' r', ts' = arrow a' b' j ++ r' ∧ tokensOf r' = tokensOf r := by
  replace h := of_cons h
  obtain ⟨t1, r1, rfl, h1, h⟩ := h
  replace h := of_cons h
  obtain ⟨t2, r2, rfl, h2, h⟩ := h
  obtain ⟨a', rfl⟩ := of_punct h1
  obtain ⟨b', rfl⟩ := of_punct h2
  exact ⟨a', b', r2, rfl, h⟩

/-! ## Reading -/

/-- The same tokens in other places are read as the same. -/
def Echo (S : Syn) : Form → Prop
  | .nodes ts ns => ∀ ts', tokensOf ts' = tokensOf ts →
    ∃ ns', Means S (.nodes ts' ns') ∧ blank tokensOf ns' = blank tokensOf ns
  | .inside _ ts n => ∀ cur' ts', tokensOf ts' = tokensOf ts →
    ∃ n', Means S (.inside cur' ts' n') ∧ blankNode tokensOf n' = blankNode tokensOf n
  | .body ts ns => ∀ ts', tokensOf ts' = tokensOf ts →
    ∃ ns', Means S (.body ts' ns') ∧ blank tokensOf ns' = blank tokensOf ns
  | .arms ts as => ∀ ts', tokensOf ts' = tokensOf ts →
    ∃ as', Means S (.arms ts' as') ∧ blankArms tokensOf as' = blankArms tokensOf as
  | .parts ts ps => ∀ ts', tokensOf ts' = tokensOf ts →
    ∃ ps', Means S (.parts ts' ps') ∧ blankParts tokensOf ps' = blankParts tokensOf ps

theorem token_cur_indep {S : Syn} (hS : Blind S) {t t' : TT} (h : token t' = token t) : S.display t' = S.display t := by
  rw [← hS.display t', h, hS.display t]

theorem echo {S : Syn} (hS : Blind S) {f : Form} (h : Means S f) : Echo S f := by
  induction h with
  | nil => intro ts' h; rw [of_nil h]; exact ⟨[], .nil, rfl⟩
  | word hw _ ih =>
    intro ts' h
    replace h := of_cons h
    obtain ⟨t', r', rfl, ht, hr⟩ := h
    obtain ⟨ns', hm, hb⟩ := ih r' hr
    exact ⟨_, .word ((wordOf_congr ht).trans hw) hm, by simp only [blank, blankNode, hb]⟩
  | quoted _ ih =>
    intro ts' h
    replace h := of_cons h
    obtain ⟨t', r', rfl, ht, hr⟩ := h
    obtain ⟨c', rfl⟩ := of_str ht
    obtain ⟨ns', hm, hb⟩ := ih r' hr
    exact ⟨_, .quoted hm, by simp only [blank, blankNode, hb]⟩
  | group _ _ ih1 ih2 =>
    intro ts' h
    replace h := of_cons h
    obtain ⟨t', r', rfl, ht, hr⟩ := h
    obtain ⟨c', us, rfl, hu⟩ := of_group ht
    obtain ⟨ms', hm1, hb1⟩ := ih1 us hu
    obtain ⟨ns', hm, hb⟩ := ih2 r' hr
    exact ⟨_, .group hm1 hm, by simp only [blank, blankNode, hb, hb1]⟩
  | alone ha _ ih =>
    intro ts' h
    replace h := of_cons h
    obtain ⟨t', r', rfl, ht, hr⟩ := h
    obtain ⟨c', rfl⟩ := of_punct ht
    obtain ⟨ns', hm, hb⟩ := ih r' hr
    exact ⟨_, .alone (alone_congr hr ha) hm, by simp only [blank, blankNode, hb]⟩
  | escape _ ih =>
    intro ts' h
    replace h := of_cons h
    obtain ⟨t', r', rfl, ht, hr⟩ := h
    obtain ⟨c', rfl⟩ := of_punct ht
    replace hr := of_cons hr
    obtain ⟨t', r', rfl, ht, hr⟩ := hr
    obtain ⟨c', rfl⟩ := of_punct ht
    obtain ⟨ns', hm, hb⟩ := ih r' hr
    exact ⟨_, .escape hm, by simp only [blank, blankNode, hb]⟩
  | control hk hp _ ih =>
    intro ts' h
    replace h := of_cons h
    obtain ⟨t', r', rfl, ht, hr⟩ := h
    obtain ⟨c', rfl⟩ := of_punct ht
    replace hr := of_cons hr
    obtain ⟨t', r', rfl, ht, hr⟩ := hr
    obtain ⟨c', us, rfl, hu⟩ := of_group ht
    replace hu := of_cons hu
    obtain ⟨t', u', rfl, ht, hu⟩ := hu
    obtain ⟨c', rfl⟩ := of_char ht
    obtain rfl := of_nil hu
    obtain ⟨ns', hm, hb⟩ := ih r' hr
    exact ⟨_, .control hk ((begins_congr placeless_paren hr).trans hp) hm, by simp only [blank, blankNode, hb]⟩
  | str _ _ ih1 ih2 =>
    intro ts' h
    replace h := of_cons h
    obtain ⟨t', r', rfl, ht, hr⟩ := h
    obtain ⟨c', rfl⟩ := of_punct ht
    replace hr := of_cons hr
    obtain ⟨t', r', rfl, ht, hr⟩ := hr
    obtain ⟨c', us, rfl, hu⟩ := of_group ht
    replace hu := of_cons hu
    obtain ⟨t', u', rfl, ht, hu⟩ := hu
    obtain ⟨c', rfl⟩ := of_ident ht
    obtain rfl := of_nil hu
    replace hr := of_cons hr
    obtain ⟨t', r', rfl, ht, hr⟩ := hr
    obtain ⟨c', us, rfl, hu⟩ := of_group ht
    obtain ⟨ps', hm1, hb1⟩ := ih1 us hu
    obtain ⟨ns', hm, hb⟩ := ih2 r' hr
    exact ⟨_, .str hm1 hm, by simp only [blank, blankNode, hb, hb1]⟩
  | name hk _ ih =>
    intro ts' h
    replace h := of_cons h
    obtain ⟨t', r', rfl, ht, hr⟩ := h
    obtain ⟨c', rfl⟩ := of_punct ht
    replace hr := of_cons hr
    obtain ⟨t', r', rfl, ht, hr⟩ := hr
    obtain ⟨c', rfl⟩ := of_ident ht
    obtain ⟨ns', hm, hb⟩ := ih r' hr
    exact ⟨_, .name hk hm, by simp only [blank, blankNode, hb, tokensOf, token]⟩
  | paren _ _ ih1 ih2 =>
    intro ts' h
    replace h := of_cons h
    obtain ⟨t', r', rfl, ht, hr⟩ := h
    obtain ⟨c', rfl⟩ := of_punct ht
    replace hr := of_cons hr
    obtain ⟨t', r', rfl, ht, hr⟩ := hr
    obtain ⟨c', us, rfl, hu⟩ := of_group ht
    obtain ⟨n', hm1, hb1⟩ := ih1 _ us hu
    obtain ⟨ns', hm, hb⟩ := ih2 r' hr
    exact ⟨_, .paren hm1 hm, by simp only [blank, hb, hb1]⟩
  | literal =>
    intro cur' ts' h
    replace h := of_cons h
    obtain ⟨t', r', rfl, ht, hr⟩ := h
    obtain ⟨c', rfl⟩ := of_str ht
    obtain rfl := of_nil hr
    exact ⟨_, .literal, by simp only [blankNode]⟩
  | eval hl hn he =>
    intro cur' ts' h
    obtain ⟨e', r', he', h1, h2⟩ := blind_congr hS.fullExpr h he
    obtain rfl := of_nil h2
    exact ⟨_, .eval ((begins_congr placeless_lead h).trans hl) (not_str h hn) he', by simp only [blankNode, h1]⟩
  | ifThen he _ ih =>
    intro cur' ts' h
    replace h := of_cons h
    obtain ⟨t', r', rfl, ht, hr⟩ := h
    obtain ⟨c', rfl⟩ := of_ident ht
    obtain ⟨e', r', he', h1, h2⟩ := blind_congr hS.expr hr he
    obtain ⟨ns', hm, hb⟩ := ih r' h2
    exact ⟨_, .ifThen he' hm, by simp only [blankNode, hb, h1]⟩
  | ifElse he _ _ ih1 ih2 =>
    intro cur' ts' h
    replace h := of_cons h
    obtain ⟨t', r', rfl, ht, hr⟩ := h
    obtain ⟨c', rfl⟩ := of_ident ht
    obtain ⟨e', r', he', h1, h2⟩ := blind_congr hS.expr hr he
    replace h2 := of_cons h2
    obtain ⟨t', r', rfl, ht, hr⟩ := h2
    obtain ⟨c', us, rfl, hu⟩ := of_group ht
    replace hr := of_cons hr
    obtain ⟨t', r', rfl, ht, hr⟩ := hr
    obtain ⟨c', rfl⟩ := of_ident ht
    replace hr := of_cons hr
    obtain ⟨t', r', rfl, ht, hr⟩ := hr
    obtain ⟨c', vs, rfl, hv⟩ := of_group ht
    obtain rfl := of_nil hr
    obtain ⟨ns', hm, hb⟩ := ih1 us hu
    obtain ⟨ms', hm', hb'⟩ := ih2 vs hv
    exact ⟨_, .ifElse he' hm hm', by simp only [blankNode, hb, hb', h1]⟩
  | loop hp he hj _ ih =>
    intro cur' ts' h
    replace h := of_cons h
    obtain ⟨t', r', rfl, ht, hr⟩ := h
    obtain ⟨c', rfl⟩ := of_ident ht
    obtain ⟨p', r', hp', h1, h2⟩ := blind_congr hS.pat hr hp
    replace h2 := of_cons h2
    obtain ⟨t', r', rfl, ht, hr⟩ := h2
    obtain ⟨c', rfl⟩ := of_ident ht
    obtain ⟨e', r', he', h3, h4⟩ := blind_congr hS.expr hr he
    obtain ⟨ns', hm, hb⟩ := ih r' h4
    exact ⟨_, .loop hp' he' ((begins_congr (placeless_word _) h4).trans hj) hm, by simp only [blankNode, hb, h1, h3]⟩
  | joined hp he _ _ ih1 ih2 =>
    intro cur' ts' h
    replace h := of_cons h
    obtain ⟨t', r', rfl, ht, hr⟩ := h
    obtain ⟨c', rfl⟩ := of_ident ht
    obtain ⟨p', r', hp', h1, h2⟩ := blind_congr hS.pat hr hp
    replace h2 := of_cons h2
    obtain ⟨t', r', rfl, ht, hr⟩ := h2
    obtain ⟨c', rfl⟩ := of_ident ht
    obtain ⟨e', r', he', h3, h4⟩ := blind_congr hS.expr hr he
    replace h4 := of_cons h4
    obtain ⟨t', r', rfl, ht, hr⟩ := h4
    obtain ⟨c', rfl⟩ := of_ident ht
    replace hr := of_cons hr
    obtain ⟨t', r', rfl, ht, hr⟩ := hr
    obtain ⟨c', us, rfl, hu⟩ := of_group ht
    obtain ⟨ms', hm', hb'⟩ := ih1 us hu
    obtain ⟨ns', hm, hb⟩ := ih2 r' hr
    exact ⟨_, .joined hp' he' hm' hm, by simp only [blankNode, hb, hb', h1, h3]⟩
  | select he _ ih =>
    intro cur' ts' h
    replace h := of_cons h
    obtain ⟨t', r', rfl, ht, hr⟩ := h
    obtain ⟨c', rfl⟩ := of_ident ht
    obtain ⟨e', r', he', h1, h2⟩ := blind_congr hS.expr hr he
    replace h2 := of_cons h2
    obtain ⟨t', r', rfl, ht, hr⟩ := h2
    obtain ⟨c', us, rfl, hu⟩ := of_group ht
    obtain rfl := of_nil hr
    obtain ⟨as', hm, hb⟩ := ih us hu
    exact ⟨_, .select he' hm, by simp only [blankNode, hb, h1]⟩
  | bind hp he =>
    intro cur' ts' h
    replace h := of_cons h
    obtain ⟨t', r', rfl, ht, hr⟩ := h
    obtain ⟨c', rfl⟩ := of_ident ht
    obtain ⟨p', r', hp', h1, h2⟩ := blind_congr hS.pat hr hp
    replace h2 := of_cons h2
    obtain ⟨t', r', rfl, ht, hr⟩ := h2
    obtain ⟨c', rfl⟩ := of_punct ht
    obtain ⟨e', r', he', h3, h4⟩ := blind_congr hS.expr hr he
    obtain rfl := of_nil h4
    exact ⟨_, .bind hp' he', by simp only [blankNode, h1, h3]⟩
  | scope hb hts =>
    intro cur' ts' h
    replace h := of_cons h
    obtain ⟨t', r', rfl, ht, hr⟩ := h
    obtain ⟨c', rfl⟩ := of_ident ht
    replace hr := of_cons hr
    obtain ⟨t', r', rfl, ht, hr⟩ := hr
    obtain ⟨c', rfl⟩ := of_ident ht
    rcases hts with ⟨a1, a2, j, rfl⟩ | ⟨a1, rfl⟩
    · replace hr := arrow_congr hr
      obtain ⟨a', b', r', rfl, hr⟩ := hr
      exact ⟨_, .scope hb (.inl ⟨a', b', j, rfl⟩), by simp only [blankNode, hr]⟩
    · replace hr := of_cons hr
      obtain ⟨t', r', rfl, ht, hr⟩ := hr
      obtain ⟨c', us, rfl, hu⟩ := of_group ht
      obtain rfl := of_nil hr
      exact ⟨_, .scope hb (.inr ⟨c', rfl⟩), by simp only [blankNode, hu]⟩
  | behind _ ih =>
    intro ts' h
    replace h := arrow_congr h
    obtain ⟨a', b', r', rfl, hr⟩ := h
    obtain ⟨ns', hm, hb⟩ := ih r' hr
    exact ⟨_, .behind hm, hb⟩
  | braces _ ih =>
    intro ts' h
    replace h := of_cons h
    obtain ⟨t', r', rfl, ht, hr⟩ := h
    obtain ⟨c', us, rfl, hu⟩ := of_group ht
    obtain rfl := of_nil hr
    obtain ⟨ns', hm, hb⟩ := ih us hu
    exact ⟨_, .braces hm, hb⟩
  | noArms => intro ts' h; rw [of_nil h]; exact ⟨[], .noArms, rfl⟩
  | armBlock hne hp hg hr _ _ ih1 ih2 =>
    intro ts' h
    obtain ⟨p', us', hp', h1, h2⟩ := blind_congr hS.patMulti h hp
    obtain ⟨guard', rest', hg', h3, h4⟩ := guarded_congr hS h2 hg
    replace h4 := arrow_congr h4
    obtain ⟨a', b', r', rfl, h5⟩ := h4
    subst hr
    replace h5 := of_cons h5
    obtain ⟨t', r', rfl, ht, hr⟩ := h5
    obtain ⟨c', us, rfl, hu⟩ := of_group ht
    obtain ⟨ns', hm, hb⟩ := ih1 us hu
    obtain ⟨as', hm', hb'⟩ := ih2 _ (sans_congr hr)
    exact ⟨_, .armBlock (fun e => hne (by subst e; exact of_nil h.symm)) hp' hg' rfl hm hm',
      by simp only [blankArms, hb, hb', h1, h3]⟩
  | armParen hne hp hg hr _ _ ih1 ih2 =>
    intro ts' h
    obtain ⟨p', us', hp', h1, h2⟩ := blind_congr hS.patMulti h hp
    obtain ⟨guard', rest', hg', h3, h4⟩ := guarded_congr hS h2 hg
    replace h4 := arrow_congr h4
    obtain ⟨a', b', r', rfl, h5⟩ := h4
    subst hr
    replace h5 := of_cons h5
    obtain ⟨t', r', rfl, ht, hr⟩ := h5
    obtain ⟨c', us, rfl, hu⟩ := of_group ht
    obtain ⟨ns', hm, hb⟩ := ih1 us hu
    obtain ⟨as', hm', hb'⟩ := ih2 _ (sans_congr hr)
    exact ⟨_, .armParen (fun e => hne (by subst e; exact of_nil h.symm)) hp' hg' rfl hm hm',
      by simp only [blankArms, hb, hb', h1, h3]⟩
  | armLine hne hp hg hbr hpa _ _ ih1 ih2 =>
    intro ts' h
    obtain ⟨p', us', hp', h1, h2⟩ := blind_congr hS.patMulti h hp
    obtain ⟨guard', rest', hg', h3, h4⟩ := guarded_congr hS h2 hg
    replace h4 := arrow_congr h4
    obtain ⟨a', b', r', rfl, h5⟩ := h4
    have hc : Placeless (fun t => !isComma t) := fun t => by simp only [placeless_comma t]
    obtain ⟨ns', hm, hb⟩ := ih1 (r'.takeWhile (fun t => !isComma t)) (by rw [take_congr hc, take_congr hc, h5])
    obtain ⟨as', hm', hb'⟩ := ih2 (r'.dropWhile (fun t => !isComma t)).tail
      (by rw [tail_congr, tail_congr, drop_congr hc, drop_congr hc, h5])
    exact ⟨_, .armLine (fun e => hne (by subst e; exact of_nil h.symm)) hp' hg'
      ((begins_congr placeless_brace h5).trans hbr) ((begins_congr placeless_paren h5).trans hpa) hm hm',
      by simp only [blankArms, hb, hb', h1, h3]⟩
  | noParts => intro ts' h; rw [of_nil h]; exact ⟨[], .noParts, rfl⟩
  | plain hn _ ih =>
    intro ts' h
    replace h := of_cons h
    obtain ⟨t', r', rfl, ht, hr⟩ := h
    obtain ⟨ps', hm, hb⟩ := ih r' hr
    refine ⟨_, .plain ?_ hm, by simp only [blankParts, blankPart, hb, token_cur_indep hS ht]⟩
    rintro c j rfl
    obtain ⟨c', rfl⟩ := of_punct ht.symm
    exact hn _ _ rfl
  | dollar _ ih =>
    intro ts' h
    replace h := of_cons h
    obtain ⟨t', r', rfl, ht, hr⟩ := h
    obtain ⟨c', rfl⟩ := of_punct ht
    replace hr := of_cons hr
    obtain ⟨t', r', rfl, ht, hr⟩ := hr
    obtain ⟨c', rfl⟩ := of_punct ht
    obtain ⟨ps', hm, hb⟩ := ih r' hr
    exact ⟨_, .dollar hm, by simp only [blankParts, blankPart, hb]⟩
  | constant _ ih =>
    intro ts' h
    replace h := of_cons h
    obtain ⟨t', r', rfl, ht, hr⟩ := h
    obtain ⟨c', rfl⟩ := of_punct ht
    replace hr := of_cons hr
    obtain ⟨t', r', rfl, ht, hr⟩ := hr
    obtain ⟨c', us, rfl, hu⟩ := of_group ht
    replace hu := of_cons hu
    obtain ⟨t', u', rfl, ht, hu⟩ := hu
    obtain ⟨c', rfl⟩ := of_ident ht
    obtain rfl := of_nil hu
    replace hr := of_cons hr
    obtain ⟨t', r', rfl, ht, hr⟩ := hr
    obtain ⟨c', us, rfl, hu⟩ := of_group ht
    replace hu := of_cons hu
    obtain ⟨t', u', rfl, ht, hu⟩ := hu
    obtain ⟨c', rfl⟩ := of_str ht
    obtain rfl := of_nil hu
    obtain ⟨ps', hm, hb⟩ := ih r' hr
    exact ⟨_, .constant hm, by simp only [blankParts, blankPart, hb]⟩
  | raw hn he _ ih =>
    intro ts' h
    replace h := of_cons h
    obtain ⟨t', r', rfl, ht, hr⟩ := h
    obtain ⟨c', rfl⟩ := of_punct ht
    replace hr := of_cons hr
    obtain ⟨t', r', rfl, ht, hr⟩ := hr
    obtain ⟨c', us, rfl, hu⟩ := of_group ht
    replace hu := of_cons hu
    obtain ⟨t', u', rfl, ht, hu⟩ := hu
    obtain ⟨c', rfl⟩ := of_ident ht
    obtain rfl := of_nil hu
    replace hr := of_cons hr
    obtain ⟨t', r', rfl, ht, hr⟩ := hr
    obtain ⟨c', us, rfl, hu⟩ := of_group ht
    obtain ⟨e', r'', he', h1, h2⟩ := blind_congr hS.fullExpr hu he
    obtain rfl := of_nil h2
    obtain ⟨ps', hm, hb⟩ := ih r' hr
    exact ⟨_, .raw (not_str hu hn) he' hm, by simp only [blankParts, blankPart, hb, h1]⟩
  | value hk _ ih =>
    intro ts' h
    replace h := of_cons h
    obtain ⟨t', r', rfl, ht, hr⟩ := h
    obtain ⟨c', rfl⟩ := of_punct ht
    replace hr := of_cons hr
    obtain ⟨t', r', rfl, ht, hr⟩ := hr
    obtain ⟨c', rfl⟩ := of_ident ht
    obtain ⟨ps', hm, hb⟩ := ih r' hr
    exact ⟨_, .value hk hm, by simp only [blankParts, blankPart, hb]⟩
  | stream _ _ ih1 ih2 =>
    intro ts' h
    replace h := of_cons h
    obtain ⟨t', r', rfl, ht, hr⟩ := h
    obtain ⟨c', rfl⟩ := of_punct ht
    replace hr := of_cons hr
    obtain ⟨t', r', rfl, ht, hr⟩ := hr
    obtain ⟨c', us, rfl, hu⟩ := of_group ht
    obtain ⟨ns', hm1, hb1⟩ := ih1 us hu
    obtain ⟨ps', hm, hb⟩ := ih2 r' hr
    exact ⟨_, .stream hm1 hm, by simp only [blankParts, blankPart, hb, hb1]⟩

end Genco.Spec.Reflow
