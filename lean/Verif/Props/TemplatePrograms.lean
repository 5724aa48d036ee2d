import Verif.Props.TextPrograms
import Verif.Props.Template
import Verif.Proofs.DocTold
import Verif.Proofs.SourceFile
import Verif.Proofs.Void

/-!
# C115: programs of templates

A template whose holes write pieces of code makes a piece of code, if its last line is on the level of its first.
-/

set_option autoImplicit false

namespace Genco.Props

open Genco Macro Spec Spec.MacroFile Spec.Template Tokens

variable {ι Env E : Type}

/-! ## Where texts are cut does not matter -/

/-- What an item adds to the height. -/
def lift (t : MState) (i : Item ι) : Int := if t.length = 1 then indOf i else 0

theorem height_cons (t : MState) (i : Item ι) (r : List (Item ι)) :
    height t (i :: r) = lift t i + (match markStep t i with
      | some u => height u r
      | none => 0) := by
  rcases t with _ | ⟨f, _ | ⟨g, t⟩⟩ <;> simp only [height, lift] <;> simp <;> rfl

theorem lift_literal (t : MState) (s : ItemStr) : lift t (.literal (ι := ι) s) = 0 := by simp [lift, indOf]

theorem fold_spell (s : Str) (t : MState) : (spell (ι := ι) s).foldlM markStep t = some t ∧ height t (spell (ι := ι) s) = 0 := by
  have gen : ∀ s : Str, (s.map (fun c => Item.literal (ι := ι) (.static [c]))).foldlM markStep t = some t ∧
      height t (s.map (fun c => Item.literal (ι := ι) (.static [c]))) = 0 := by
    intro s
    induction s with
    | nil => exact ⟨rfl, rfl⟩
    | cons c s ih =>
      have hm : markStep t (.literal (ι := ι) (.static [c])) = some t := by
        unfold markStep; split <;> simp_all
      refine ⟨?_, ?_⟩
      · rw [List.map_cons, List.foldlM_cons, hm]; exact ih.1
      · rw [List.map_cons, height_cons, hm, lift_literal]
        simp only [ih.2, Int.add_zero]
  cases s with
  | nil =>
    have hm : markStep t (.literal (ι := ι) (.static [])) = some t := by
      unfold markStep; split <;> simp_all
    refine ⟨?_, ?_⟩
    · rw [spell, List.foldlM_cons, hm]; rfl
    · rw [spell, height_cons, hm, lift_literal]
      rfl
  | cons c s => exact gen (c :: s)

theorem mark_literal (t : MState) (s : ItemStr) : markStep t (.literal (ι := ι) s) = some t := by
  unfold markStep; split <;> simp_all

theorem fold_letters (A : List (Item ι)) : ∀ t : MState, (letters A).foldlM markStep t = A.foldlM markStep t ∧
    height t (letters A) = height t A := by
  induction A with
  | nil => exact fun _ => ⟨rfl, rfl⟩
  | cons i A ih =>
    intro t
    by_cases hl : ∃ s, i = .literal s
    · obtain ⟨s, rfl⟩ := hl
      obtain ⟨h1, h2⟩ := fold_spell (ι := ι) s.text t
      rw [letters_cons, letter, List.foldlM_append, h1, List.foldlM_cons, mark_literal, height_behind _ _ _ _ h1, h2,
        height_cons, mark_literal, lift_literal]
      refine ⟨(ih t).1, ?_⟩
      simp only [(ih t).2]
    · have e : letters (i :: A) = erase i :: letters A := by
        rw [letters_cons]
        cases i <;> first | rfl | exact absurd ⟨_, rfl⟩ hl
      have hm : markStep t (erase i) = markStep t i := by cases i <;> simp [erase, markStep]
      have hi : lift t (erase i) = lift t i := by cases i <;> rfl
      rw [e, List.foldlM_cons, List.foldlM_cons, hm, height_cons, height_cons, hm, hi]
      cases markStep t i with
      | none => exact ⟨rfl, rfl⟩
      | some u =>
        refine ⟨(ih u).1, ?_⟩
        simp only [(ih u).2]

/-- A part of the letters is as high as a part of the items. -/
theorem letters_prefix (B : List (Item ι)) : ∀ (t : MState) (X : List (Item ι)), X <+: letters B →
    ∃ A, A <+: B ∧ height t X = height t A := by
  induction B with
  | nil =>
    intro t X h
    have : X = [] := List.prefix_nil.1 h
    exact ⟨[], List.prefix_refl _, by rw [this]⟩
  | cons i B ih =>
    intro t X h
    rw [letters_cons] at h
    have whole : ∀ q, q <+: letters B → ∃ A, A <+: i :: B ∧ height t (letter i ++ q) = height t A := by
      intro q hq
      have e := fold_letters [i] t
      have e' : letters [i] = letter i := by simp [letters]
      rw [e', List.foldlM_cons] at e
      cases hm : markStep t i with
      | none =>
        refine ⟨[i], by simp, ?_⟩
        rw [hm] at e
        have : ∀ (Y : List (Item ι)) (t : MState), Y.foldlM markStep t = none → height t (Y ++ q) = height t Y := by
          intro Y
          induction Y with
          | nil => intro t h; cases h
          | cons j Y ihY =>
            intro t h
            rw [List.foldlM_cons] at h
            rw [List.cons_append, height_cons, height_cons]
            cases hj : markStep t j with
            | none => rfl
            | some u =>
              rw [hj] at h
              simp only [ihY u h]
        rw [this _ _ e.1, e.2]
      | some u =>
        rw [hm] at e
        obtain ⟨A, hA, hh⟩ := ih u q hq
        refine ⟨i :: A, List.cons_prefix_cons.2 ⟨rfl, hA⟩, ?_⟩
        have e1 : (letter i).foldlM markStep t = some u := e.1
        rw [height_behind _ _ _ _ e1, e.2, hh, height_cons, height_cons, hm]
        simp [height]
    rcases prefix_cut h with h | ⟨q, rfl, hq⟩
    · by_cases hl : ∃ s, i = .literal s
      · obtain ⟨s, rfl⟩ := hl
        refine ⟨[], List.nil_prefix, ?_⟩
        have gen : ∀ X : List (Item ι), (∀ j ∈ X, ∃ s, j = .literal s) → height t X = 0 := by
          intro X
          induction X with
          | nil => exact fun _ => rfl
          | cons j X ihX =>
            intro hX
            obtain ⟨s, rfl⟩ := hX j (by simp)
            rw [height_cons, mark_literal, lift_literal]
            simp only [ihX (fun j hj => hX j (by simp [hj])), Int.add_zero]
        rw [gen X, height]
        intro j hj
        have := h.subset hj
        rw [letter] at this
        cases hs : s.text with
        | nil => rw [hs, spell] at this; exact ⟨_, by simpa using this⟩
        | cons c r =>
          rw [hs, spell] at this
          obtain ⟨k, -, rfl⟩ := List.mem_map.1 this
          exact ⟨_, rfl⟩
      · have e : letter i = [erase i] := by
          cases i <;> first | rfl | exact absurd ⟨_, rfl⟩ hl
        rw [e] at h
        rcases List.prefix_cons_iff.1 h with rfl | ⟨t', rfl, ht⟩
        · exact ⟨[], List.nil_prefix, rfl⟩
        · rw [List.prefix_nil.1 ht]
          have := whole [] List.nil_prefix
          rwa [e] at this
    · exact whole q hq

theorem opening_letters (L : Lang ι) (l : List (Item ι)) : opening L (letters l) ≠ [] ↔ opening L l ≠ [] := by
  induction l with
  | nil => exact Iff.rfl
  | cons i l ih =>
    rw [letters_cons]
    cases i with
    | literal s =>
      rw [letter]
      cases hs : s.text with
      | nil => exact ⟨fun h => absurd rfl h, fun h => absurd hs h⟩
      | cons c r =>
        refine ⟨fun _ h => ?_, fun _ h => ?_⟩
        · rw [show opening L (.literal s :: l) = s.text from rfl, hs] at h
          cases h
        · cases h
    | register a b => exact ih
    | _ => exact Iff.rfl

theorem ends_letters (L : Lang ι) (l : List (Item ι)) :
    (∃ r e, letters l = r ++ [e] ∧ Ends L e) ↔ ∃ r e, l = r ++ [e] ∧ Ends L e := by
  rcases List.eq_nil_or_concat l with rfl | ⟨m, x, rfl⟩
  · constructor <;> rintro ⟨r, e, h, -⟩
    · simp [letters] at h
    · simp at h
  · have key : (∃ r e, letters (m.concat x) = r ++ [e] ∧ Ends L e) ↔ Ends L x := by
      rw [List.concat_eq_append, letters_append, show letters [x] = letter x by simp [letters]]
      have lit' : ∀ (s : Str) (hs : s ≠ []), ∃ t c, (spell (ι := ι) s) = t ++ [.literal (.static [c])] := by
        intro s hs
        obtain ⟨t, c, rfl⟩ := (List.eq_nil_or_concat s).resolve_left hs
        rw [List.concat_eq_append] at hs ⊢
        obtain ⟨a, u, e⟩ := List.exists_cons_of_ne_nil hs
        refine ⟨t.map (fun c => .literal (.static [c])), c, ?_⟩
        have : spell (ι := ι) (t ++ [c]) = (t ++ [c]).map (fun c => .literal (.static [c])) := by rw [e]; rfl
        rw [this]; simp
      by_cases hl : ∃ s, x = .literal s
      · obtain ⟨s, rfl⟩ := hl
        by_cases hs : s.text = []
        · rw [letter, hs, spell]
          refine ⟨?_, fun h => absurd hs h⟩
          rintro ⟨r, e, h, he⟩
          have := List.append_inj_right' h rfl
          simp only [List.cons.injEq, and_true] at this
          subst this
          exact absurd rfl he
        · obtain ⟨t, c, e⟩ := lit' s.text hs
          rw [letter, e, ← List.append_assoc]
          exact ⟨fun _ => hs, fun _ => ⟨_, _, rfl, by simp [Ends, ItemStr.text]⟩⟩
      · have e : letter x = [erase x] := by
          cases x <;> first | rfl | exact absurd ⟨_, rfl⟩ hl
        have he : Ends L (erase x) ↔ Ends L x := by cases x <;> exact Iff.rfl
        rw [e, ← he]
        constructor
        · rintro ⟨r, y, h, hy⟩
          have := List.append_inj_right' h rfl
          simp only [List.cons.injEq, and_true] at this
          rwa [this]
        · exact fun h => ⟨_, _, rfl, h⟩
    rw [key]
    constructor
    · exact fun h => ⟨m, x, by simp, h⟩
    · rintro ⟨r, e, h, he⟩
      rw [List.concat_eq_append] at h
      have := List.append_inj_right' h rfl
      simp only [List.cons.injEq, and_true] at this
      rwa [this]

/-- Calls with the same letters as a piece of code are one. -/
theorem own_letters {L : Lang ι} {k : Int} {cs ds : List (Call ι)}
    (h : letters (cs.flatMap callItems) = letters (ds.flatMap callItems)) (hd : Own L k ds) : Own L k cs := by
  have hi : letters (history cs).items = letters (history ds).items := by rw [letters_history, letters_history, h]
  refine ⟨⟨?_, ?_, ?_⟩, ?_, ?_⟩
  · rw [← ends_letters, h, ends_letters]; exact hd.segment.1
  · rw [Spec.marks, ← (fold_letters _ _).1, hi, (fold_letters _ _).1]; exact hd.segment.2.1
  · rw [← (fold_letters _ _).2, hi, (fold_letters _ _).2]; exact hd.segment.2.2
  · rw [← opening_letters, h, opening_letters]; exact hd.begins
  · intro A hA
    obtain ⟨t, ht⟩ := hA
    have : letters A <+: letters (history ds).items := ⟨letters t, by rw [← letters_append, ht, hi]⟩
    obtain ⟨B, hB, hh⟩ := letters_prefix _ [[⟨false, false⟩]] _ this
    rw [← (fold_letters A _).2, hh]
    exact hd.inward B hB

/-! ## Blocks -/

/-- The levels that the items pass through are levels that the requests pass through. -/
structure Track (s : MState) (X : List (Item ι)) (A : List Act) (s' : MState) : Prop where
  fold : X.foldlM markStep s = some s'
  total : height s X = (A.map actInd).sum
  within : ∀ q, q <+: X → ∃ a, a <+: A ∧ height s q = (a.map actInd).sum

theorem Track.nil (s : MState) : Track (ι := ι) s [] [] s :=
  ⟨rfl, rfl, fun q hq => ⟨[], List.nil_prefix, by rw [List.prefix_nil.1 hq]; rfl⟩⟩

theorem Track.append {s s' s'' : MState} {X Y : List (Item ι)} {A B : List Act} (h : Track s X A s')
    (h' : Track s' Y B s'') : Track s (X ++ Y) (A ++ B) s'' := by
  refine ⟨by rw [List.foldlM_append, h.fold]; exact h'.fold, ?_, fun q hq => ?_⟩
  · rw [height_behind _ _ _ _ h.fold, h.total, h'.total, List.map_append, List.sum_append]
  · rcases prefix_cut hq with hq | ⟨q', rfl, hq'⟩
    · obtain ⟨a, ha, he⟩ := h.within q hq
      exact ⟨a, ha.trans (List.prefix_append _ _), he⟩
    · obtain ⟨a, ha, he⟩ := h'.within q' hq'
      refine ⟨A ++ a, (List.prefix_append_right_inj A).2 ha, ?_⟩
      rw [height_behind _ _ _ _ h.fold, h.total, he, List.map_append, List.sum_append]

theorem texts_flat (l : List Str) : ((l.map Act.text).map actInd).sum = 0 := by
  induction l with
  | nil => rfl
  | cons s l ih => simpa [actInd] using ih

/-- One item. -/
theorem Track.one {s s' : MState} {i : Item ι} {A : List Act} (h : markStep s i = some s') (hA : lift s i = (A.map actInd).sum) :
    Track s [i] A s' := by
  have e : height s [i] = (A.map actInd).sum := by
    rw [height_cons, h, hA]
    simp [height]
  refine ⟨by simp [h], e, fun q hq => ?_⟩
  rcases List.prefix_cons_iff.1 hq with rfl | ⟨t, rfl, ht⟩
  · exact ⟨[], List.nil_prefix, rfl⟩
  · rw [List.prefix_nil.1 ht]
    exact ⟨A, List.prefix_refl _, e⟩

/-- Texts that items stand for. -/
theorem Track.texts {s s' : MState} {i : Item ι} (l : List Str) (h : markStep s i = some s') (hi : indOf i = 0) :
    Track s [i] (l.map .text) s' :=
  .one h (by rw [texts_flat]; simp [lift, hi])

theorem mark_plain {i : Item ι} (hi : isPlain i = true) (s : MState) : markStep s i = some s := by
  cases i <;> first | cases hi; done | (unfold markStep; split <;> simp_all)

theorem plain_ind (f : ι → List Str) (i : Item ι) : ((plainActs f i).map actInd).sum = indOf i := by
  cases i with
  | indentation n => by_cases h : n = 0 <;> simp [plainActs, indOf, actInd, h]
  | lang a j => exact texts_flat _
  | _ => rfl

theorem quoted_ind (L : Lang ι) (i : Item ι) : ((quotedActs L i).map actInd).sum = indOf i := by
  cases i with
  | literal s => exact texts_flat _
  | _ =>
    simp only [quotedActs]
    exact plain_ind L.langItem _

theorem plain_inside (is : List (Item ι)) (h : is.all isPlain = true) (f : List MFrame) (l : List MFrame) (ls : MState) :
    is.foldlM markStep (f :: l :: ls) = some (f :: l :: ls) ∧ ∀ q, q <+: is → height (f :: l :: ls) q = 0 := by
  induction is with
  | nil => exact ⟨rfl, fun q hq => by rw [List.prefix_nil.1 hq]; rfl⟩
  | cons i is ih =>
    simp only [List.all_cons, Bool.and_eq_true] at h
    obtain ⟨i1, i2⟩ := ih h.2
    refine ⟨by rw [List.foldlM_cons, mark_plain h.1]; exact i1, fun q hq => ?_⟩
    rcases List.prefix_cons_iff.1 hq with rfl | ⟨t, rfl, ht⟩
    · rfl
    · rw [height_cons, mark_plain h.1]
      simp [lift, i2 t ht]

mutual

theorem track_code (L : Lang ι) (cfg : Config) : ∀ (c : Code ι), c.plain = true → ∀ (f : MFrame) (fs : List MFrame),
    f.inQuote = false → Track [f :: fs] c.items (c.acts L cfg) [f :: fs]
  | .nil, _, _, _, _ => Track.nil _
  | .item i r, h, f, fs, hf => by
    simp only [Code.plain, Bool.and_eq_true] at h
    rw [Code.items, Code.acts]
    exact (Track.one (mark_plain h.1 _) (by rw [plain_ind]; simp [lift])).append (track_code L cfg r h.2 f fs hf)
  | .quote e b r, h, f, fs, hf => by
    simp only [Code.plain, Bool.and_eq_true] at h
    have h1 : Track (ι := ι) [f :: fs] [.openQuote e] ((L.openQuote e).map .text) [{ f with inQuote := true } :: fs] :=
      .texts _ (by simp [markStep, hf]) rfl
    have h2 := track_body L cfg b h.1 { f with inQuote := true } fs rfl
    have h3 : Track (ι := ι) [{ f with inQuote := true } :: fs] [.closeQuote] ((L.closeQuote e).map .text) [f :: fs] :=
      .texts _ (by simp [markStep, ← hf]) rfl
    have := ((h1.append h2).append h3).append (track_code L cfg r h.2 f fs hf)
    simpa [Code.items, Code.acts] using this

theorem track_body (L : Lang ι) (cfg : Config) : ∀ (b : Body ι), b.plain = true → ∀ (f : MFrame) (fs : List MFrame),
    f.inQuote = true → Track [f :: fs] b.items (b.acts L cfg) [f :: fs]
  | .nil, _, _, _, _ => Track.nil _
  | .item i r, h, f, fs, hf => by
    simp only [Body.plain, Bool.and_eq_true] at h
    rw [Body.items, Body.acts]
    exact (Track.one (mark_plain h.1 _) (by rw [quoted_ind]; simp [lift])).append (track_body L cfg r h.2 f fs hf)
  | .eval c r, h, f, fs, hf => by
    simp only [Body.plain, Bool.and_eq_true] at h
    have hr := track_body L cfg r h.2 f fs hf
    have o : markStep (ι := ι) [f :: fs] .openEval = some [⟨false, true⟩ :: f :: fs] := by simp [markStep, hf]
    have cl : markStep (ι := ι) [⟨false, true⟩ :: f :: fs] .closeEval = some [f :: fs] := by simp [markStep]
    have hc := track_code L cfg c h.1 ⟨false, true⟩ (f :: fs) rfl
    rw [Body.items, Body.acts]
    cases hs : c.single with
    | none =>
      have := (((Track.texts L.startEval o rfl).append hc).append (Track.texts L.endEval cl rfl)).append hr
      simpa using this
    | some s =>
      obtain ⟨x, rfl⟩ : ∃ x, c = .item (.literal x) .nil := by
        unfold Code.single at hs
        split at hs
        · exact ⟨_, rfl⟩
        · cases hs
      have := (((Track.texts (L.evalLiteral s) o rfl).append
        (Track.texts [] (mark_literal _ x) rfl)).append (Track.texts [] cl rfl)).append hr
      simpa [Code.items] using this
  | .inner is r, h, f, fs, hf => by
    simp only [Body.plain, Bool.and_eq_true] at h
    have hr := track_body L cfg r h.2 f fs hf
    have o : markStep (ι := ι) [f :: fs] (.openQuote false) = some ([⟨false, false⟩] :: [f :: fs]) := by simp [markStep, hf]
    have cl : markStep (ι := ι) ([⟨false, false⟩] :: [f :: fs]) .closeQuote = some [f :: fs] := by simp [markStep]
    obtain ⟨p1, p2⟩ := plain_inside is h.1 [⟨false, false⟩] (f :: fs) []
    have hm : Track ([⟨false, false⟩] :: [f :: fs]) is [] ([⟨false, false⟩] :: [f :: fs]) :=
      ⟨p1, p2 is (List.prefix_refl _), fun q hq => ⟨[], List.nil_prefix, p2 q hq⟩⟩
    rw [Body.items, Body.acts]
    have := (((Track.texts (L.writeQuoted (render cfg ((L.openQuote false).map .text ++
      is.flatMap (plainActs L.langItem) ++ (L.closeQuote false).map .text))) o rfl).append hm).append
        (Track.texts [] cl rfl)).append hr
    simpa using this

end

theorem seen_sum (A : List Act) : ((seen A).map actInd).sum = (A.map actInd).sum := by
  induction A with
  | nil => rfl
  | cons a A ih =>
    unfold seen at ih ⊢
    rw [List.filter_cons]
    by_cases h : a = .text []
    · subst h
      simpa [actInd] using ih
    · simpa [h] using ih

/-- What is written begins with text and ends with text. -/
def Shows (L : Lang ι) (cs : List (Call ι)) : Prop :=
  opening L (cs.flatMap callItems) ≠ [] ∧ ∃ r e, cs.flatMap callItems = r ++ [e] ∧ Ends L e

/-- C115. A block of code as in C76 that begins and ends with text can be a part of a program. -/
theorem C115_block {L : Lang ι} {cfg : Config} {cs : List (Call ι)} {vs : List Str} (h : BlockOf L cfg cs vs)
    (hs : Shows L cs) : (Program.leaf cs vs).Ok L cfg := by
  refine ⟨?_, h.lines⟩
  obtain ⟨c, c1, c2, c3⟩ := h.block.code
  have t := track_code L cfg c c1 ⟨false, false⟩ [] rfl
  have e := fold_letters (history cs).items [[⟨false, false⟩]]
  have e' := fold_letters c.items [[⟨false, false⟩]]
  rw [c2] at e
  refine ⟨⟨hs.2, ?_, ?_⟩, hs.1, fun A hA => ?_⟩
  · rw [Spec.marks, ← e.1, e'.1, t.fold]
  · rw [← e.2, e'.2, t.total, ← seen_sum, c3.level]
  · obtain ⟨x, hx⟩ := hA
    have : letters A <+: letters c.items := ⟨letters x, by rw [← letters_append, hx, c2]⟩
    obtain ⟨B, hB, hh⟩ := letters_prefix _ [[⟨false, false⟩]] _ this
    obtain ⟨a, ha, hs⟩ := t.within B hB
    rw [← (fold_letters A _).2, hh, hs, ← seen_sum]
    exact c3.inside _ (List.IsPrefix.filter _ ha)

/-! ## Templates -/


theorem own_gap {L : Lang ι} {k : Int} {cs ds : List (Call ι)} (hk : 0 ≤ k) (hc : Own L k cs) (hd : Own L 0 ds)
    (n : Nat) : Own L k (cs ++ ((if n = 0 then [] else [.space]) ++ ds)) := by
  by_cases hn : n = 0
  · have := own_join hc hd [] (by simpa [net] using hk)
    simpa [hn, net] using this
  · have := own_join hc hd [.space] (by simpa [net] using hk)
    simpa [hn, net, WsCall.call] using this

theorem own_rest {L : Lang ι} {C : (Cur → Node E) → List (Call ι)} {k : Int} (hk : 0 ≤ k) (r : List (Nat × Slot E)) :
    ∀ ds : List (Call ι), Own L k ds → (∀ p ∈ r, Own L 0 (slotCalls C p.2)) → Own L k (ds ++ restCalls C r) := by
  induction r with
  | nil => intro ds h _; simpa [restCalls] using h
  | cons p r ih =>
    intro ds h hr
    have := ih _ (own_gap hk h (hr p (by simp)) p.1) (fun q hq => hr q (by simp [hq]))
    simpa [restCalls] using this

theorem own_tail {L : Lang ι} {C : (Cur → Node E) → List (Call ι)} (ls : List (Template.Row E))
    (h : ∀ x ∈ ls, ∀ s ∈ x.slots, Own L 0 (slotCalls C s)) :
    ∀ (p : Nat) (past : List Nat) (ds : List (Call ι)), Own L (MacroFile.depth p past : Nat) ds →
      lastLevel (p :: past) ls = 0 → Own L 0 (ds ++ tailCalls C p past ls) := by
  induction ls with
  | nil =>
    intro p past ds hd hl
    rw [lastLevel] at hl
    rw [tailCalls, hl]
    rw [hl] at hd
    simpa using hd
  | cons l ls ih =>
    intro p past ds hd hl
    have hn := break_net (depth p past) (depth l.column (p :: past)) (depth_next _ _ _) (decide (0 < l.above))
    have h0 := own_join hd (h l (by simp) l.first (by simp [Template.Row.slots]))
      (breakCalls (depth p past) (depth l.column (p :: past)) (decide (0 < l.above))) (by rw [hn]; omega)
    rw [hn, show ((depth p past : Nat) : Int) + (((depth l.column (p :: past) : Nat) : Int) - (depth p past : Nat)) + 0 =
      (depth l.column (p :: past) : Nat) by omega] at h0
    have h1 := own_rest (C := C) (by omega) l.rest _ h0 (fun q hq => h l (by simp) q.2 (by
      simp only [Template.Row.slots, List.mem_cons, List.mem_map]
      exact .inr ⟨q, hq, rfl⟩))
    have h2 := ih (fun x hx => h x (by simp [hx])) _ _ _ h1 (by rwa [lastLevel] at hl)
    rw [tailCalls]
    simpa [List.append_assoc] using h2

theorem own_all {L : Lang ι} {C : (Cur → Node E) → List (Call ι)} (l : Template.Row E) (ls : List (Template.Row E))
    (h : ∀ x ∈ l :: ls, ∀ s ∈ x.slots, Own L 0 (slotCalls C s)) (hl : lastLevel [] (l :: ls) = 0) :
    Own L 0 (allCalls C l ls) := by
  have h1 := own_rest (C := C) (k := 0) (by omega) l.rest _ (h l (by simp) l.first (by simp [Template.Row.slots]))
    (fun q hq => h l (by simp) q.2 (by
      simp only [Template.Row.slots, List.mem_cons, List.mem_map]
      exact .inr ⟨q, hq, rfl⟩))
  have h2 := own_tail (C := C) ls (fun x hx => h x (by simp [hx])) l.column [] _ (by simpa [MacroFile.depth, enclosing] using h1)
    (by rwa [lastLevel] at hl)
  simpa [allCalls, List.append_assoc] using h2

/-- The imports of what is on a line. -/
def slotImports (C : (Cur → Node E) → List (Call ι)) : Slot E → List ι
  | .word _ => []
  | .hole _ n => inserted (C n)

/-- The imports of the holes of a template, in order. -/
def rowImports (C : (Cur → Node E) → List (Call ι)) (ls : List (Template.Row E)) : List ι :=
  ls.flatMap (fun x => x.slots.flatMap (slotImports C))

/-- C115. A template whose holes write blocks that begin and end with text, and whose last line is on the level of the
first, is a part of programs, with the lines of the template and the imports of its holes. It begins and ends with
text, so it can fill holes of such templates (with C76_nested). -/
theorem C115_leaf (H : Host ι E Env) (hv : ∀ ρ e, ∀ c ∈ H.value ρ e, ¬ EmptyCall c)
    (hs : ∀ ρ e, ∀ c ∈ H.scope ρ e, ¬ EmptyCall c) (ρ : Env) (L : Lang ι) (esc : Char → Str)
    (hQ : ∀ s, L.writeQuoted s = s.map esc) (cfg : Config)
    (C : (Cur → Node E) → List (Call ι)) (V : (Cur → Node E) → List Str) (ls : List (Template.Row E)) (hl : ls ≠ [])
    (h : ∀ x ∈ ls, ∀ s ∈ x.slots, SlotIn H ρ L cfg C V s) (ho : Template.Offside [] ls) (line : Nat)
    (ns : List (Node E)) (hn : flatten ns = placeRows line ls) (hd : lastLevel [] ls = 0)
    (hO : ∀ x ∈ ls, ∀ w n, Slot.hole w n ∈ x.slots → Shows L (C n)) :
    ∃ r ss, Macro.quote none ns = .ok (r, ss) ∧ inserted (runBlock H ρ ss) = rowImports C ls ∧
      Shows L (runBlock H ρ ss) ∧ (Program.leaf (runBlock H ρ ss) (Template.outLines cfg V [] ls)).Ok L cfg := by
  obtain ⟨r, ss, h1, h2⟩ := C76_template H hv hs ρ L esc hQ cfg C V ls hl h ho line ns hn
  obtain ⟨l, ls, rfl⟩ := List.exists_cons_of_ne_nil hl
  obtain ⟨r', ss', h1', -, h3⟩ := template_run H hv hs ρ C l ls (fun x hx s hs => slotIn_fills (h x hx s hs)) ho line ns hn
  rw [h1] at h1'
  obtain ⟨-, rfl⟩ := Prod.mk.inj (Except.ok.inj h1')
  have ho : Own L 0 (runBlock H ρ ss) := by
    refine own_letters h3 (own_all l ls (fun x hx s hs => ?_) hd)
    cases s with
    | word s => exact text_own L s (h x hx _ hs)
    | hole w n => exact (C115_block (h x hx _ hs).toBlockOf (hO x hx w n hs)).1
  refine ⟨r, ss, h1, ?_, ⟨ho.begins, ho.segment.1⟩, ho, h2⟩
  · rw [Genco.Proofs.DocFile.inserted_same h3, Genco.Proofs.TextFile.inserted_all, rowImports]
    have e : (fun s => inserted (slotCalls C s)) = slotImports C := by
      funext s
      cases s <;> rfl
    rw [e]

/-- C115. What was collected in a stream is such a block if what was written is, so what a template or a program
makes can be put into the holes of other templates. -/
theorem C115_stream {L : Lang ι} {cfg : Config} {cs : List (Call ι)} {vs : List Str} (hB : BlockOf L cfg cs vs)
    (h : Shows L cs) : BlockOf L cfg [.stream (history cs).items] vs ∧ Shows L [.stream (history cs).items] := by
  have e : [Call.stream (history cs).items].flatMap callItems = (history cs).items := by simp [callItems]
  refine ⟨C76_stream L cfg cs vs hB, ?_, ?_⟩
  · rw [e, history_eq]
    exact opening_items L _ h.1
  · obtain ⟨r, x, hx, he⟩ := h.2
    obtain ⟨x', h1, -, h3⟩ := history_ended (r.map Call.append) x (ends_ws he)
    refine ⟨(history (r.map Call.append)).items, x', ?_, ends_erase he h1⟩
    rw [e, history_appended hx, Tokens.items, h3]
    simp [Tokens.items]

/-! ## Programs of templates -/

/-- Templates at a level, one below the other, and further in. -/
inductive Templates (E : Type) where
  | template (line : Nat) (ls : List (Template.Row E)) (ns : List (Node E))
  | both (a : Templates E) (w : List WsCall) (b : Templates E)
  | block (a b c : Templates E)

/-- The nodes are for the lines, the lines keep to the off-side rule, the holes write blocks that begin and end with
text, and the last line of every template is on the level of its first. -/
def Templates.Ok (H : Host ι E Env) (ρ : Env) (L : Lang ι) (cfg : Config) (C : (Cur → Node E) → List (Call ι))
    (V : (Cur → Node E) → List Str) : Templates E → Prop
  | .template line ls ns => ls ≠ [] ∧ (∀ x ∈ ls, ∀ s ∈ x.slots, SlotIn H ρ L cfg C V s) ∧ Template.Offside [] ls ∧
      flatten ns = placeRows line ls ∧ lastLevel [] ls = 0 ∧ ∀ x ∈ ls, ∀ w n, Slot.hole w n ∈ x.slots → Shows L (C n)
  | .both a w b => a.Ok H ρ L cfg C V ∧ b.Ok H ρ L cfg C V ∧ net w = 0 ∧ 0 < gapBreaks w ∧ gapSpaces w = 0
  | .block a b c => a.Ok H ρ L cfg C V ∧ b.Ok H ρ L cfg C V ∧ c.Ok H ρ L cfg C V

/-- The lines of the templates, with the lines of the holes in them. -/
def Templates.lines (cfg : Config) (V : (Cur → Node E) → List Str) : Templates E → List Str
  | .template _ ls _ => Template.outLines cfg V [] ls
  | .both a w b => a.lines cfg V ++ List.replicate (gapBreaks w - 1) [] ++ b.lines cfg V
  | .block a b c => a.lines cfg V ++ (b.lines cfg V).map (movedIn cfg 1) ++ c.lines cfg V

/-- The imports of the holes, in order. -/
def Templates.imports (C : (Cur → Node E) → List (Call ι)) : Templates E → List ι
  | .template _ ls _ => rowImports C ls
  | .both a _ b => a.imports C ++ b.imports C
  | .block a b c => a.imports C ++ b.imports C ++ c.imports C

/-- The calls are made by the macros for the templates, and the whitespace calls between them. -/
def Templates.Makes (H : Host ι E Env) (ρ : Env) : Templates E → List (Call ι) → Prop
  | .template _ _ ns, cs => ∃ r ss, Macro.quote none ns = .ok (r, ss) ∧ cs = runBlock H ρ ss
  | .both a w b, cs => ∃ x y, a.Makes H ρ x ∧ b.Makes H ρ y ∧ cs = x ++ w.map WsCall.call ++ y
  | .block a b c, cs => ∃ x y z, a.Makes H ρ x ∧ b.Makes H ρ y ∧ c.Makes H ρ z ∧
      cs = x ++ [.indent] ++ y ++ [.unindent] ++ z

/-- C115. All macros of a program of templates are accepted, and what they make, which there is only one of, is a
program with the lines of the templates and the imports of the holes. So C111, C112 and C113 are about it. -/
theorem C115_program (H : Host ι E Env) (hv : ∀ ρ e, ∀ c ∈ H.value ρ e, ¬ EmptyCall c)
    (hs : ∀ ρ e, ∀ c ∈ H.scope ρ e, ¬ EmptyCall c) (ρ : Env) (L : Lang ι) (esc : Char → Str)
    (hQ : ∀ s, L.writeQuoted s = s.map esc) (cfg : Config) (C : (Cur → Node E) → List (Call ι))
    (V : (Cur → Node E) → List Str) (t : Templates E) (ht : t.Ok H ρ L cfg C V) :
    ∃ p : Program ι, (∀ cs, t.Makes H ρ cs ↔ cs = p.calls) ∧ p.lines cfg = t.lines cfg V ∧ p.imports = t.imports C ∧
      p.Ok L cfg := by
  induction t with
  | template line ls ns =>
    obtain ⟨h1, h2, h3, h4, h5, h6⟩ := ht
    obtain ⟨r, ss, a, b, -, c⟩ := C115_leaf H hv hs ρ L esc hQ cfg C V ls h1 h2 h3 line ns h4 h5 h6
    refine ⟨.leaf (runBlock H ρ ss) (Template.outLines cfg V [] ls), fun cs => ⟨?_, ?_⟩, rfl, b, c⟩
    · rintro ⟨r', ss', a', rfl⟩
      rw [a] at a'
      cases a'
      rfl
    · rintro rfl
      exact ⟨r, ss, a, rfl⟩
  | both a w b iha ihb =>
    obtain ⟨p, p1, p2, p3, p4⟩ := iha ht.1
    obtain ⟨q, q1, q2, q3, q4⟩ := ihb ht.2.1
    refine ⟨.both p w q, fun cs => ⟨?_, ?_⟩, by simp [Program.lines, Templates.lines, p2, q2],
      by simp [Program.imports, Templates.imports, p3, q3], p4, q4, ht.2.2⟩
    · rintro ⟨x, y, hx, hy, rfl⟩
      rw [(p1 x).1 hx, (q1 y).1 hy, Program.calls]
    · rintro rfl
      exact ⟨p.calls, q.calls, (p1 _).2 rfl, (q1 _).2 rfl, rfl⟩
  | block a b c iha ihb ihc =>
    obtain ⟨p, p1, p2, p3, p4⟩ := iha ht.1
    obtain ⟨q, q1, q2, q3, q4⟩ := ihb ht.2.1
    obtain ⟨r, r1, r2, r3, r4⟩ := ihc ht.2.2
    refine ⟨.block p q r, fun cs => ⟨?_, ?_⟩, by simp [Program.lines, Templates.lines, p2, q2, r2],
      by simp [Program.imports, Templates.imports, p3, q3, r3], p4, q4, r4⟩
    · rintro ⟨x, y, z, hx, hy, hz, rfl⟩
      rw [(p1 x).1 hx, (q1 y).1 hy, (r1 z).1 hz, Program.calls]
    · rintro rfl
      exact ⟨p.calls, q.calls, r.calls, (p1 _).2 rfl, (q1 _).2 rfl, (r1 _).2 rfl, rfl⟩

/-- C115. They are rendered as the lines of the templates, those in a block one level further in. -/
theorem C115_lines (H : Host ι E Env) (hv : ∀ ρ e, ∀ c ∈ H.value ρ e, ¬ EmptyCall c)
    (hs : ∀ ρ e, ∀ c ∈ H.scope ρ e, ¬ EmptyCall c) (ρ : Env) (L : Lang ι) (esc : Char → Str)
    (hQ : ∀ s, L.writeQuoted s = s.map esc) (cfg : Config) (C : (Cur → Node E) → List (Call ι))
    (V : (Cur → Node E) → List Str) (t : Templates E) (ht : t.Ok H ρ L cfg C V) :
    ∃ cs, t.Makes H ρ cs ∧ toVec L cfg (history cs).items = some (t.lines cfg V) ∧ inserted cs = t.imports C := by
  obtain ⟨p, p1, p2, p3, p4⟩ := C115_program H hv hs ρ L esc hQ cfg C V t ht
  exact ⟨p.calls, (p1 _).2 rfl, by rw [C111_program L cfg p p4, p2], by rw [imports_eq, p3]⟩

/-! ## Examples -/

namespace TemplateSample

/-- The template of C76 in a block, and once more below it. -/
def whole : Templates Str :=
  .both (.block (.template 1 [⟨0, 0, .word c!"f", [(1, .word c!"{")]⟩]
      [.tree ⟨⟨1, 0⟩, ⟨1, 1⟩⟩ c!"f", .tree ⟨⟨1, 2⟩, ⟨1, 3⟩⟩ c!"{"])
    (.template 7 rows nodes) (.template 9 [⟨0, 0, .word c!"}", []⟩] [.tree ⟨⟨9, 0⟩, ⟨9, 1⟩⟩ c!"}"]))
    [.line] (.template 7 rows nodes)

theorem rows_show : ∀ x ∈ rows, ∀ w n, Slot.hole w n ∈ x.slots → Shows lang (calls n) := by
  have hv : Shows lang (calls (fun cur => .eval cur ['v'])) :=
    ⟨by decide +kernel, ended [_, _, _, _, _, _, _, _] (.literal (.static ['}'])) rfl (by simp [Ends, ItemStr.text])⟩
  have ht : Shows lang (calls (fun cur => .eval cur ['t'])) :=
    ⟨by decide +kernel, ended [] (.literal (.box ['t'])) rfl (by simp [Ends, ItemStr.text])⟩
  intro x hx w n hs
  simp only [rows, List.mem_cons, List.not_mem_nil, or_false] at hx
  rcases hx with rfl | rfl | rfl <;>
    simp only [Row.slots, List.map_cons, List.map_nil, List.mem_cons, List.not_mem_nil, or_false, hole, Slot.hole.injEq,
      reduceCtorEq, false_or] at hs
  · rcases hs with ⟨-, rfl⟩ | ⟨-, rfl⟩
    · exact hv
    · exact ht
  · obtain ⟨-, rfl⟩ := hs
    exact hv
  · obtain ⟨-, rfl⟩ := hs
    exact ht

theorem whole_ok : whole.Ok host () lang cfg calls linesOf := by
  have hr : (Templates.template 7 rows nodes).Ok host () lang cfg calls linesOf :=
    ⟨by simp [rows], rows_in, by simp only [rows, Template.Offside]; decide, rfl, by decide, rows_show⟩
  have hw : ∀ (a : Str) (r : List Str) (line : Nat) (ns : List (Node Str)), a ≠ [] → (∀ s ∈ r, s ≠ []) →
      flatten ns = placeRows line [⟨0, 0, .word a, r.map fun s => (1, .word s)⟩] →
      (Templates.template line [⟨0, 0, .word a, r.map fun s => (1, .word s)⟩] ns).Ok host () lang cfg calls linesOf := by
    intro a r line ns ha hr' hn
    refine ⟨by simp, ?_, trivial, hn, rfl, ?_⟩
    · intro x hx s hs
      cases List.mem_singleton.1 hx
      simp only [Row.slots, List.map_map, List.mem_cons, List.mem_map, Function.comp] at hs
      rcases hs with rfl | ⟨s', hs', rfl⟩
      · exact ha
      · exact hr' s' hs'
    · intro x hx w n hs
      cases List.mem_singleton.1 hx
      simp [Row.slots] at hs
  exact ⟨⟨hw c!"f" [c!"{"] 1 _ (by decide) (by decide) rfl, hr, hw c!"}" [] 9 _ (by decide) (by decide) rfl⟩, hr,
    by decide, by decide, by decide⟩

example : ∃ cs, whole.Makes host () cs ∧ toVec lang cfg (history cs).items = some
    [c!"f {", c!"  let a = f(Point {", c!"    x: 1,", c!"    \"y\"", c!"  }, t);", c!"    Point {", c!"      x: 1,",
      c!"      \"y\"", c!"    }", c!"", c!"  t;", c!"}", c!"",
      c!"let a = f(Point {", c!"  x: 1,", c!"  \"y\"", c!"}, t);", c!"  Point {", c!"    x: 1,",
      c!"    \"y\"", c!"  }", c!"", c!"t;"] := by
  obtain ⟨cs, h1, h2, -⟩ := C115_lines host full (fun _ _ _ h => by cases h) () lang _ (fun _ => rfl) cfg calls linesOf
    whole whole_ok
  exact ⟨cs, h1, h2.trans (by decide +kernel)⟩

end TemplateSample

end Genco.Props
