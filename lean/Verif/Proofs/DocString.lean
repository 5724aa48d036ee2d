import Verif.Proofs.DocLayout

/-!
# Templates in source text: strings with code in them, as calls
-/

set_option autoImplicit false

namespace Genco.Proofs.DocFile

open Genco Macro Spec Spec.MacroFile Spec.Doc Genco.Proofs Genco.Proofs.TextFile Tokens
open Genco.Spec.Template (letters letter)

variable {ι : Type}

/-- The calls for the parts of a string. -/
inductive Spelt (L : Lang ι) (cfg : Config) : List Stretch → List (Call ι) → Prop
  | nil : Spelt L cfg [] []
  | text {bs cs} (it : ItemStr) : it.text ≠ [] → Spelt L cfg bs cs →
    Spelt L cfg (.text it.text :: bs) (.append (.literal it) :: cs)
  | code {ds vs bs cs} : Template.BlockOf L cfg ds vs → Spelt L cfg bs cs →
    Spelt L cfg (.code vs :: bs) (.append .openEval :: (ds ++ .append .closeEval :: cs))

theorem norm_solid (i : Item ι) (l : List (Item ι)) (h : isWs i = false) : norm (i :: l) = erase i :: norm l := by
  have := norm_split [] l i h
  rwa [List.nil_append, show norm ([] : List (Item ι)) = [] from rfl, List.nil_append] at this

/-- Texts are written one behind the other. -/
theorem vec_texts (cfg : Config) (l : List Str) : ∀ v : VecState,
    actsSt ⟨.none, 0, 0⟩ (l.map Act.text) = ⟨.none, 0, 0⟩ ∧
    vecActs cfg ⟨.none, 0, 0⟩ v (l.map Act.text) = ⟨v.lineBuffer ++ l.flatten, v.target⟩ := by
  induction l with
  | nil => intro v; exact ⟨rfl, by simp [vecActs]⟩
  | cons s l ih =>
    intro v
    have h1 : actSt ⟨.none, 0, 0⟩ (.text s) = ⟨.none, 0, 0⟩ := by
      by_cases h : s = [] <;> simp [actSt, h, LSt.flushed]
    have h2 : vecAct cfg ⟨.none, 0, 0⟩ v (.text s) = ⟨v.lineBuffer ++ s, v.target⟩ := by
      by_cases h : s = [] <;> simp [vecAct, h, flushPad]
    rw [List.map_cons, actsSt, vecActs, h1, h2]
    exact ⟨(ih v).1, by rw [(ih _).2]; simp⟩

theorem vec_open (cfg : Config) (l : List Str) (h : l.flatten ≠ []) :
    actsSt .new (l.map Act.text) = ⟨.none, 0, 0⟩ ∧ vecActs cfg .new .new (l.map Act.text) = ⟨l.flatten, []⟩ := by
  induction l with
  | nil => exact absurd rfl h
  | cons s l ih =>
    by_cases hs : s = []
    · subst hs
      exact ih h
    · have z : marginText cfg 0 = [] := by unfold marginText; cases cfg.indentation <;> simp
      have h1 : actSt .new (.text s) = ⟨.none, 0, 0⟩ := by simp [actSt, hs, LSt.flushed, LSt.new]
      have h2 : vecAct cfg .new .new (.text s) = ⟨s, []⟩ := by simp [vecAct, hs, flushPad, LSt.new, VecState.new, z]
      rw [List.map_cons, actsSt, vecActs, h1, h2]
      have := vec_texts cfg l ⟨s, []⟩
      exact ⟨this.1, by rw [this.2]; simp⟩

theorem lev_texts (l : List Str) : Lev 0 (seen (l.map Act.text)) 0 := by
  induction l with
  | nil => exact ⟨rfl, fun p hp => by cases List.prefix_nil.1 hp; simp⟩
  | cons s l ih =>
    by_cases hs : s = []
    · subst hs
      simpa [seen] using ih
    · have : seen ((s :: l).map Act.text) = [.text s] ++ seen (l.map Act.text) := by simp [seen, hs]
      rw [this]
      exact (lev_single 0 (.text s) 0 (by simp [actInd])).append ih

/-- The requests for code that is evaluated. -/
theorem eval_acts (L : Lang ι) (cfg : Config) (hE : ∀ s, L.evalLiteral s = L.startEval ++ [s] ++ L.endEval) (c : Spec.Code ι)
    (b : Body ι) : (Body.eval c b).acts L cfg =
      (L.startEval.map Act.text ++ c.acts L cfg ++ L.endEval.map Act.text) ++ b.acts L cfg := by
  rw [Body.acts]
  congr 1
  cases hc : c.single with
  | none => rfl
  | some s =>
    unfold Code.single at hc
    split at hc
    · rename_i x
      cases hc
      cases x <;> simp [hE, Code.acts, plainActs]
    · cases hc

/-- The parts of a string. -/
theorem spelt_body {L : Lang ι} {cfg : Config} (hQ : HomQuote L) {bs : List Stretch} {cs : List (Call ι)} (h : Spelt L cfg bs cs)
    (hE : bs.any Stretch.isCode = true → ∀ s, L.evalLiteral s = L.startEval ++ [s] ++ L.endEval) :
    ∃ b : Body ι, b.plain = true ∧
      (∀ x l, isWs x = false → letters (norm (cs.flatMap callItems ++ x :: l)) = letters b.items ++ letters (norm (x :: l))) ∧
      Lev 0 (seen (b.acts L cfg)) 0 ∧ actsSt ⟨.none, 0, 0⟩ (b.acts L cfg) = ⟨.none, 0, 0⟩ ∧
      (∀ v, (vecActs cfg ⟨.none, 0, 0⟩ v (b.acts L cfg)).intoVec =
        (bs.map (Stretch.lines L)).foldl (fun a b => Template.seam a [] b) v.intoVec) ∧
      (bs.any Stretch.isCode = false → ∀ i ∈ cs.flatMap callItems, opensEval i = false) := by
  induction h with
  | nil =>
    exact ⟨.nil, rfl, fun _ _ _ => rfl, ⟨rfl, fun p hp => by cases List.prefix_nil.1 hp; simp⟩, rfl, fun v => rfl, fun _ => by simp⟩
  | @text bs cs it hs _ ih =>
    obtain ⟨b, b1, b2, b3, b4, b5, b6⟩ := ih (by simpa [Stretch.isCode] using hE)
    have ea : (Body.item (.literal it) b).acts L cfg = (L.writeQuoted it.text).map Act.text ++ b.acts L cfg := rfl
    refine ⟨.item (.literal it) b, by simp [Body.plain, isPlain, b1], fun x l hx => ?_, ?_, ?_, fun v => ?_, ?_⟩
    · rw [show (Call.append (.literal it) :: cs).flatMap callItems ++ x :: l =
        .literal it :: (cs.flatMap callItems ++ x :: l) from by simp [callItems], norm_solid _ _ rfl]
      rw [show letters (erase (.literal it : Item ι) :: norm (cs.flatMap callItems ++ x :: l)) =
        letter (erase (.literal it)) ++ letters (norm (cs.flatMap callItems ++ x :: l)) from rfl, b2 x l hx, ← List.append_assoc]
      rfl
    · rw [ea, seen_append]
      exact (lev_texts _).append b3
    · rw [ea, actsSt_append, (vec_texts cfg _ .new).1, b4]
    · rw [ea, vecActs_append, (vec_texts cfg _ .new).1, (vec_texts cfg _ v).2, b5]
      rw [List.map_cons, List.foldl_cons]
      congr 1
      simp [Stretch.lines, VecState.intoVec, Template.seam]
    · intro hb i hi
      rw [List.flatMap_cons, List.mem_append] at hi
      rcases hi with hi | hi
      · simp [callItems] at hi
        rw [hi]
        rfl
      · exact b6 (by simpa [Stretch.isCode] using hb) i hi
  | @code ds vs bs cs hB _ ih =>
    have hE := hE (by simp [Stretch.isCode])
    obtain ⟨b, b1, b2, b3, b4, b5, b6⟩ := ih (fun _ => hE)
    obtain ⟨c, hp, hc, hw⟩ := hB.block.code
    have ho : ownLines cfg (seen (c.acts L cfg)) = vs := by
      have := hB.lines
      rw [toVec_codeOf L hQ cfg _ c hB.uniform ⟨hp, by rw [norm_history, letters_erase, hc]⟩] at this
      rw [ownLines_seen]
      exact Option.some.inj this
    obtain ⟨y, ys, hy⟩ : ∃ y ys, ownLines cfg (seen (c.acts L cfg)) = y :: ys := by
      cases hx : ownLines cfg (seen (c.acts L cfg)) with
      | nil => exact absurd hx (intoVec_ne _)
      | cons b bs => exact ⟨b, bs, rfl⟩
    have hm := fun v => vec_mid cfg _ hw 0 0 v y ys hy
    have ea := eval_acts L cfg hE c b
    have es : actsSt ⟨.none, 0, 0⟩ (c.acts L cfg) = ⟨.none, 0, 0⟩ := by
      rw [← actsSt_seen]; exact (hm .new).1
    refine ⟨.eval c b, by simp [Body.plain, hp, b1], fun x l hx => ?_, ?_, ?_, fun v => ?_, ?_⟩
    · rw [show (Call.append .openEval :: (ds ++ .append .closeEval :: cs)).flatMap callItems ++ x :: l =
        .openEval :: ([] ++ (ds.flatMap callItems ++ .closeEval :: (cs.flatMap callItems ++ x :: l))) from by
          simp [callItems], norm_solid _ _ rfl, norm_block hB.block, norm_solid _ _ rfl]
      rw [show letters (erase (.openEval : Item ι) :: (norm [] ++ ((history ds).items.map erase ++
          erase .closeEval :: norm (cs.flatMap callItems ++ x :: l)))) =
        .openEval :: (letters ((history ds).items.map erase ++ erase .closeEval :: norm (cs.flatMap callItems ++ x :: l))) from rfl,
        letters_append, letters_erase, hc]
      rw [show letters (erase (.closeEval : Item ι) :: norm (cs.flatMap callItems ++ x :: l)) =
        .closeEval :: letters (norm (cs.flatMap callItems ++ x :: l)) from rfl, b2 x l hx]
      rw [show (Body.eval c b).items = .openEval :: (c.items ++ .closeEval :: b.items) from by simp [Body.items]]
      rw [show letters (.openEval :: (c.items ++ .closeEval :: b.items)) = .openEval :: letters (c.items ++ .closeEval :: b.items) from rfl,
        letters_append]
      simp [letters, letter, erase]
    · rw [ea, seen_append, seen_append, seen_append]
      exact (((lev_texts _).append (lev_whole hw 0)).append (lev_texts _)).append b3
    · rw [ea, actsSt_append, actsSt_append, actsSt_append, (vec_texts cfg _ .new).1, es, (vec_texts cfg _ .new).1, b4]
    · rw [ea, vecActs_append, vecActs_append, vecActs_append, actsSt_append, actsSt_append, (vec_texts cfg _ .new).1, es,
        (vec_texts cfg _ .new).1, b5, (vec_texts cfg _ v).2, ← vecActs_seen cfg _ _ (c.acts L cfg), (vec_texts cfg _ _).2]
      rw [List.map_cons, List.foldl_cons]
      congr 1
      have := (hm ⟨v.lineBuffer ++ L.startEval.flatten, v.target⟩).2
      rw [show ((0 : Nat) : Int) = 0 from rfl] at this
      rw [show movedIn cfg 0 = id from movedIn_zero cfg, List.map_id] at this
      generalize vecActs cfg ⟨.none, 0, 0⟩ ⟨v.lineBuffer ++ L.startEval.flatten, v.target⟩ (seen (c.acts L cfg)) = u at this ⊢
      rw [← ho, hy]
      have hu : u.target = (v.target ++ ((v.lineBuffer ++ L.startEval.flatten ++ y) :: ys)).dropLast ∧
          u.lineBuffer = (v.target ++ ((v.lineBuffer ++ L.startEval.flatten ++ y) :: ys)).getLast?.getD [] := by
        rw [show v.lineBuffer ++ L.startEval.flatten ++ y = v.lineBuffer ++ L.startEval.flatten ++ List.replicate 0 ' ' ++ y from by simp,
          ← this]
        simp [VecState.intoVec]
      simp only [VecState.intoVec, hu.1, hu.2, Stretch.lines, Template.seam]
      cases ys using List.reverseRecOn with
      | nil => simp
      | append_singleton ys z _ =>
        have d1 : ∀ (a : List Str) (x : Str), (a ++ (x :: (ys ++ [z]))).dropLast = a ++ x :: ys := by
          intro a x
          rw [show a ++ (x :: (ys ++ [z])) = (a ++ x :: ys) ++ [z] by simp, List.dropLast_concat]
        have d2 : ∀ (a : List Str) (x : Str), (a ++ (x :: (ys ++ [z]))).getLast? = some z := by
          intro a x
          rw [show a ++ (x :: (ys ++ [z])) = (a ++ x :: ys) ++ [z] by simp, List.getLast?_concat]
        have d3 := d1 []
        have d4 := d2 []
        simp only [List.nil_append] at d3 d4
        simp [d1, d2, d3, d4]
    · intro hb
      simp [Stretch.isCode] at hb

/-- A string with its quotation marks. -/
theorem spelt_block {L : Lang ι} {cfg : Config} (hQ : HomQuote L) {bs : List Stretch} {cs : List (Call ι)} (h : Spelt L cfg bs cs)
    (ho : (L.openQuote (bs.any Stretch.isCode)).flatten ≠ []) (hc : (L.closeQuote (bs.any Stretch.isCode)).flatten ≠ [])
    (hE : bs.any Stretch.isCode = true → ∀ s, L.evalLiteral s = L.startEval ++ [s] ++ L.endEval) :
    Template.BlockOf L cfg (.append (.openQuote (bs.any Stretch.isCode)) :: (cs ++ [.append .closeQuote])) (stringLines L bs) := by
  obtain ⟨b, b1, b2, b3, b4, b5, b6⟩ := spelt_body hQ h hE
  generalize hz : bs.any Stretch.isCode = z at *
  have e : (Call.append (.openQuote z) :: (cs ++ [.append .closeQuote])).flatMap callItems =
      .openQuote z :: (cs.flatMap callItems ++ [.closeQuote]) := by simp [callItems]
  have ha : (Code.quote z b (.nil : Spec.Code ι)).acts L cfg =
      (L.openQuote z).map Act.text ++ b.acts L cfg ++ (L.closeQuote z).map Act.text := by simp [Code.acts]
  have hC : CodeOf ((Call.append (.openQuote z) :: (cs ++ [.append .closeQuote])).flatMap callItems) (Code.quote z b .nil) := by
    refine ⟨by simp [Code.plain, b1], ?_⟩
    rw [e, norm_solid _ _ rfl]
    rw [show letters (erase (.openQuote z : Item ι) :: norm (cs.flatMap callItems ++ [.closeQuote])) =
      .openQuote z :: letters (norm (cs.flatMap callItems ++ [.closeQuote])) from rfl, b2 _ _ rfl, norm_solid _ _ rfl,
      show norm ([] : List (Item ι)) = [] from rfl, Code.items, show (Code.nil : Spec.Code ι).items = [] from rfl]
    rw [show letters (.openQuote z :: b.items ++ [.closeQuote]) = .openQuote z :: letters (b.items ++ [.closeQuote]) from rfl, letters_append]
    rfl
  have hU : Template.Uniform L ((Call.append (.openQuote z) :: (cs ++ [.append .closeQuote])).flatMap callItems) := by
    rw [e]
    cases z with
    | true => exact .inl (hE rfl)
    | false =>
      refine .inr (fun i hi => ?_)
      rcases List.mem_cons.1 hi with rfl | hi
      · rfl
      rcases List.mem_append.1 hi with hi | hi
      · exact b6 rfl i hi
      · cases List.mem_singleton.1 hi; rfl
  have hfirst : ∀ l : List Str, l.flatten ≠ [] → ∃ s r, seen (l.map Act.text) = .text s :: r ∧ s ≠ [] := by
    intro l
    induction l with
    | nil => intro h; exact absurd rfl h
    | cons s l ih =>
      intro h
      by_cases hs : s = []
      · subst hs; simpa [seen] using ih h
      · exact ⟨s, seen (l.map Act.text), by simp [seen, hs], hs⟩
  have hlast : ∀ l : List Str, l.flatten ≠ [] → ∃ r s, seen (l.map Act.text) = r ++ [.text s] ∧ s ≠ [] := by
    intro l
    induction l using List.reverseRecOn with
    | nil => intro h; exact absurd rfl h
    | append_singleton l s ih =>
      intro h
      by_cases hs : s = []
      · subst hs
        have := ih (by simpa using h)
        simpa [seen] using this
      · exact ⟨seen (l.map Act.text), s, by simp [seen, hs], hs⟩
  refine ⟨⟨⟨_, _, e, rfl⟩, ⟨.openQuote z :: cs.flatMap callItems, .closeQuote, by rw [e]; rfl, rfl⟩, _, hC.1, ?_, ?_⟩, hU, ?_⟩
  · rw [letters_history, ← letters_norm, hC.2]
  · rw [ha, seen_append, seen_append]
    have hl := ((lev_texts (L.openQuote z)).append b3).append (lev_texts (L.closeQuote z))
    obtain ⟨s, r, h1, h2⟩ := hfirst _ ho
    obtain ⟨r', s', h3, h4⟩ := hlast _ hc
    exact ⟨⟨s, _, by rw [h1]; rfl, h2⟩, ⟨_, s', by rw [h3, ← List.append_assoc], h4⟩,
      fun p hp => by simpa using hl.2 p hp, by simpa using hl.1⟩
  · rw [toVec_codeOf L hQ cfg _ _ hU hC, ha, vecActs_append, vecActs_append, actsSt_append, (vec_open cfg _ ho).1, b4,
      (vec_open cfg _ ho).2, (vec_texts cfg _ _).2]
    have := b5 ⟨(L.openQuote z).flatten, []⟩
    generalize vecActs cfg ⟨.none, 0, 0⟩ ⟨(L.openQuote z).flatten, []⟩ (b.acts L cfg) = u at this ⊢
    rw [stringLines, hz]
    rw [show (⟨(L.openQuote z).flatten, []⟩ : VecState).intoVec = [(L.openQuote z).flatten] from rfl] at this
    rw [← this]
    simp [VecState.intoVec, Template.seam]

end Genco.Proofs.DocFile
