import Verif.Proofs.Values

/-!
# Lemmas about the layout of comments
-/

set_option autoImplicit false

namespace Genco

open Spec Tokens

variable {ι : Type}

theorem toDigits_decimal (n : Nat) : Nat.toDigits 10 n = SpanText.decimal n := by
  induction n using Nat.strongRecOn with
  | ind n ih =>
    have hd : ∀ m < 10, m.digitChar = (match m with
      | 0 => '0' | 1 => '1' | 2 => '2' | 3 => '3' | 4 => '4'
      | 5 => '5' | 6 => '6' | 7 => '7' | 8 => '8' | _ => '9') := by decide
    unfold SpanText.decimal
    by_cases h : n < 10
    · rw [Nat.toDigits_of_lt_base h, if_pos h, hd n h, Nat.mod_eq_of_lt h]; rfl
    · rw [Nat.toDigits_of_base_le (by omega) (by omega), if_neg h, ih (n / 10) (by omega),
        hd (n % 10) (Nat.mod_lt _ (by omega))]
      rfl

theorem intText_signed (n : Int) : intText n = signed n := by
  unfold intText signed
  rw [toDigits_decimal]
  split <;> rfl

/-! ## Rows -/

/-- A line of a comment: a space first, a mark, a text behind it. -/
structure Row where
  lead : Bool
  mark : ItemStr
  tail : Option ItemStr

def Row.items (r : Row) : List (Item ι) :=
  .push :: ((if r.lead then [.space] else []) ++ .literal r.mark ::
    (match r.tail with | some l => [.space, .literal l] | none => []))

def Row.acts (r : Row) : List Act :=
  .push :: ((if r.lead then [.space] else []) ++ .text r.mark.text ::
    (match r.tail with | some l => [.space, .text l.text] | none => []))

def Row.text (r : Row) : Str :=
  (if r.lead then [' '] else []) ++ r.mark.text ++
    (match r.tail with | some l => if l.text = [] then [] else ' ' :: l.text | none => [])

theorem row_acts (f : ι → List Str) (r : Row) : (r.items : List (Item ι)).flatMap (plainActs f) = r.acts := by
  obtain ⟨a, b, c⟩ := r
  cases a <;> cases c <;> rfl

theorem row_plain (r : Row) : ∀ i ∈ (r.items : List (Item ι)), isPlain i = true := by
  obtain ⟨a, b, c⟩ := r
  cases a <;> cases c <;> simp [Row.items, isPlain]

theorem row_fromIter (r : Row) (l : List (Item ι)) :
    (fromIter (r.items ++ l)).items.map erase = r.items.map erase ++ (fromIter l).items.map erase := by
  obtain ⟨a, b, c⟩ := r
  cases c with
  | none =>
    have e : (Row.items ⟨a, b, none⟩ ++ l : List (Item ι)) =
        (.push :: (if a then [.space] else [])) ++ .literal b :: l := by simp [Row.items]
    rw [e, fromIter_split _ _ _ rfl]
    cases a <;> rfl
  | some c =>
    have e : (Row.items ⟨a, b, some c⟩ ++ l : List (Item ι)) =
        (.push :: ((if a then [.space] else []) ++ [.literal b, .space])) ++ .literal c :: l := by
      simp [Row.items]
    rw [e, fromIter_split _ _ _ rfl]
    cases a <;> rfl

theorem rows_fromIter (rs : List Row) (l : List (Item ι)) :
    (fromIter (rs.flatMap Row.items ++ l)).items.map erase =
      (rs.flatMap Row.items).map erase ++ (fromIter l).items.map erase := by
  induction rs with
  | nil => rfl
  | cons r rs ih => rw [List.flatMap_cons, List.append_assoc, row_fromIter, ih, List.map_append, List.append_assoc]

theorem row_vec (cfg : Config) (r : Row) (hr : r.mark.text ≠ []) (k : Int) (sp : Nat) (v : VecState) :
    (∃ sp', actsSt ⟨.none, sp, k⟩ r.acts = ⟨.none, sp', k⟩) ∧
    (vecActs cfg ⟨.none, sp, k⟩ v r.acts).intoVec = v.intoVec ++ [marginText cfg k.toNat ++ r.text] := by
  obtain ⟨a, b, c⟩ := r
  dsimp only at hr
  cases c with
  | none =>
    cases a <;>
      simp [Row.acts, Row.text, actsSt, vecActs, actSt, vecAct, hr, LSt.flushed, flushPad, VecState.intoVec]
  | some c =>
    by_cases hc : c.text = [] <;> cases a <;>
      simp [Row.acts, Row.text, actsSt, vecActs, actSt, vecAct, hr, hc, LSt.flushed, flushPad,
        VecState.intoVec]

theorem rows_vec (cfg : Config) (rs : List Row) (hr : ∀ r ∈ rs, r.mark.text ≠ []) (k : Int) (sp : Nat)
    (v : VecState) :
    (∃ sp', actsSt ⟨.none, sp, k⟩ (rs.flatMap Row.acts) = ⟨.none, sp', k⟩) ∧
    (vecActs cfg ⟨.none, sp, k⟩ v (rs.flatMap Row.acts)).intoVec =
      v.intoVec ++ rs.map (fun r => marginText cfg k.toNat ++ r.text) := by
  induction rs generalizing sp v with
  | nil => exact ⟨⟨sp, rfl⟩, by simp [vecActs]⟩
  | cons r rs ih =>
    obtain ⟨⟨sp', h1⟩, h2⟩ := row_vec cfg r (hr r (by simp)) k sp v
    obtain ⟨h3, h4⟩ := ih (fun r h => hr r (by simp [h])) sp' (vecActs cfg ⟨.none, sp, k⟩ v r.acts)
    rw [List.flatMap_cons, actsSt_append, vecActs_append, h1, h4, h2]
    exact ⟨h3, by simp⟩

/-- The first row of a file. -/
theorem row_first (cfg : Config) (r : Row) (hr : r.mark.text ≠ []) :
    (∃ sp', actsSt .new r.acts = ⟨.none, sp', 0⟩) ∧
    (vecActs cfg .new .new r.acts).intoVec = [r.text] := by
  obtain ⟨a, b, c⟩ := r
  dsimp only at hr
  have z : marginText cfg 0 = [] := by unfold marginText; cases cfg.indentation <;> simp
  cases c with
  | none =>
    cases a <;>
      simp [Row.acts, Row.text, actsSt, vecActs, actSt, vecAct, hr, LSt.flushed, flushPad,
        VecState.intoVec, LSt.new, VecState.new, z]
  | some c =>
    by_cases hc : c.text = [] <;> cases a <;>
      simp [Row.acts, Row.text, actsSt, vecActs, actSt, vecAct, hr, hc, LSt.flushed, flushPad,
        VecState.intoVec, LSt.new, VecState.new, z]

theorem rows_first (cfg : Config) (r : Row) (rs : List Row) (hr : ∀ x ∈ r :: rs, x.mark.text ≠ []) :
    (vecActs cfg .new .new ((r :: rs).flatMap Row.acts)).intoVec = (r :: rs).map Row.text := by
  obtain ⟨⟨sp', h1⟩, h2⟩ := row_first cfg r (hr r (by simp))
  obtain ⟨h3, h4⟩ := rows_vec cfg rs (fun r h => hr r (by simp [h])) 0 sp' (vecActs cfg .new .new r.acts)
  have z : marginText cfg 0 = [] := by unfold marginText; cases cfg.indentation <;> simp
  rw [List.flatMap_cons, vecActs_append, h1, h4, h2]
  simp [z]

/-! ## What follows -/

theorem vecActs_pre (cfg : Config) (p : List Str) (acts : List Act) (st : LSt) (b : Str) (t : List Str) :
    vecActs cfg st ⟨b, p ++ t⟩ acts =
      ⟨(vecActs cfg st ⟨b, t⟩ acts).lineBuffer, p ++ (vecActs cfg st ⟨b, t⟩ acts).target⟩ := by
  induction acts generalizing st b t with
  | nil => rfl
  | cons a acts ih =>
    have h : ∃ b' t', vecAct cfg st ⟨b, t⟩ a = ⟨b', t'⟩ ∧ vecAct cfg st ⟨b, p ++ t⟩ a = ⟨b', p ++ t'⟩ := by
      cases a with
      | text s =>
        simp only [vecAct]
        split
        · exact ⟨_, _, rfl, rfl⟩
        · cases st.line <;> refine ⟨_, _, rfl, ?_⟩ <;> simp
      | _ => exact ⟨_, _, rfl, rfl⟩
    obtain ⟨b', t', h1, h2⟩ := h
    rw [vecActs, vecActs, h1, h2, ih]

/-- After a request for a new line, what is written does not depend on what was
written before. -/
theorem vec_after (cfg : Config) (acts : List Act) (w : Whitespace) (hw : w = .push ∨ w = .line)
    (sp : Nat) (k : Int) :
    ∃ lb, ∀ v, (vecActs cfg ⟨w, sp, k⟩ v acts).intoVec = v.intoVec ++ lb := by
  induction acts generalizing w sp k with
  | nil => exact ⟨[], fun v => by simp [vecActs]⟩
  | cons a acts ih =>
    cases a with
    | text s =>
      by_cases hs : s = []
      · obtain ⟨lb, h⟩ := ih w hw sp k
        exact ⟨lb, fun v => by rw [vecActs]; simp only [hs, actSt, vecAct, ne_eq, not_true, if_false, if_true]; exact h v⟩
      · let st : LSt := ⟨.none, 0, k⟩
        let b := flushPad cfg ⟨w, sp, k⟩ ++ s
        let x := vecActs cfg st ⟨b, []⟩ acts
        refine ⟨(if w = .line then [[]] else []) ++ (x.target ++ [x.lineBuffer]), fun v => ?_⟩
        rw [vecActs]
        have e : vecAct cfg ⟨w, sp, k⟩ v (.text s) = ⟨b, (v.intoVec ++ (if w = .line then [[]] else [])) ++ []⟩ := by
          rcases hw with rfl | rfl <;> simp [vecAct, hs, b, VecState.intoVec]
        have e2 : actSt ⟨w, sp, k⟩ (.text s) = st := by simp [actSt, hs, LSt.flushed, st]
        rw [e, e2, vecActs_pre]
        simp [VecState.intoVec, x]
    | push =>
      rcases hw with rfl | rfl
      · exact ih .push (.inl rfl) 0 k
      · exact ih .line (.inr rfl) sp k
    | line => rcases hw with rfl | rfl <;> exact ih .line (.inr rfl) 0 k
    | space => exact ih w hw (sp + 1) k
    | indent n =>
      rcases hw with rfl | rfl
      · exact ih .push (.inl rfl) 0 (k + n)
      · exact ih .line (.inr rfl) sp (k + n)

theorem vec_after_start (cfg : Config) (a : Act) (ha : a = .push ∨ a = .line ∨ ∃ n, a = .indent n)
    (acts : List Act) (k : Int) :
    ∃ lb, ∀ sp v, (vecActs cfg ⟨.none, sp, k⟩ v (a :: acts)).intoVec = v.intoVec ++ lb := by
  rcases ha with rfl | rfl | ⟨n, rfl⟩
  · obtain ⟨lb, h⟩ := vec_after cfg acts .push (.inl rfl) 0 k
    exact ⟨lb, fun sp v => h v⟩
  · obtain ⟨lb, h⟩ := vec_after cfg acts .line (.inr rfl) 0 k
    exact ⟨lb, fun sp v => h v⟩
  · obtain ⟨lb, h⟩ := vec_after cfg acts .push (.inl rfl) 0 (k + n)
    exact ⟨lb, fun sp v => h v⟩

/-! ## Comments as rows -/

theorem marked_row (m : ItemStr) (l : ItemStr) : Row.text ⟨false, m, some l⟩ = marked m.text l.text := by
  by_cases h : l.text = [] <;> simp [Row.text, marked, h]

theorem mark_rows (m : ItemStr) (hm : m.text ≠ []) (ls : List ItemStr) : ∃ rows : List Row,
    (∀ r ∈ rows, r.mark.text ≠ []) ∧ (markItems m ls : List (Item ι)) = rows.flatMap Row.items ∧
    (ls.map fun l => marked m.text l.text) = rows.map Row.text := by
  refine ⟨ls.map fun l => ⟨false, m, some l⟩, ?_, ?_, ?_⟩
  · intro r hr
    obtain ⟨l, -, rfl⟩ := List.mem_map.1 hr
    exact hm
  · rw [List.flatMap_map]; rfl
  · rw [List.map_map]
    exact List.map_congr_left fun l _ => (marked_row m l).symm

theorem comment_rows (v : Value ι) (ls : List Str) (h : commentLines v = some ls) : ∃ rows : List Row,
    (∀ r ∈ rows, r.mark.text ≠ []) ∧ (∀ t, v.formatInto t = t.extend (rows.flatMap Row.items)) ∧
    ls = rows.map Row.text := by
  cases v with
  | csharpBlockComment l =>
    obtain ⟨rows, h1, h2, h3⟩ := mark_rows (ι := ι) (.static ['/', '/', '/']) (by simp [ItemStr.text]) l
    exact ⟨rows, h1, fun t => by rw [Value.formatInto, csharpBlock_items, h2],
      by rw [← h3]; exact (Option.some.inj h).symm⟩
  | csharpComment l =>
    obtain ⟨rows, h1, h2, h3⟩ := mark_rows (ι := ι) (.static ['/', '/']) (by simp [ItemStr.text]) l
    exact ⟨rows, h1, fun t => by rw [Value.formatInto, csharp_items, h2],
      by rw [← h3]; exact (Option.some.inj h).symm⟩
  | dartDocComment l =>
    obtain ⟨rows, h1, h2, h3⟩ := mark_rows (ι := ι) (.static ['/', '/', '/']) (by simp [ItemStr.text]) l
    exact ⟨rows, h1, fun t => by rw [Value.formatInto, dart_items, h2],
      by rw [← h3]; exact (Option.some.inj h).symm⟩
  | javaBlockComment l =>
    cases l with
    | nil =>
      refine ⟨[], by simp, fun t => rfl, (Option.some.inj h).symm⟩
    | cons l ls' =>
      refine ⟨⟨false, .static ['/', '*', '*'], none⟩ :: ((l :: ls').map fun l => ⟨true, .static ['*'], some l⟩) ++
        [⟨true, .box ['*', '/'], none⟩], ?_, fun t => ?_, ?_⟩
      · intro r hr
        simp only [List.cons_append, List.mem_cons, List.mem_append, List.mem_map, List.not_mem_nil,
          or_false] at hr
        rcases hr with rfl | ⟨l, -, rfl⟩ | rfl <;> simp [ItemStr.text]
      · rw [Value.formatInto, java_items]
        congr 1
        rw [List.cons_append, List.flatMap_cons, List.flatMap_append, List.flatMap_map]
        rfl
      · have key : ∀ l : ItemStr, marked [' ', '*'] l.text = Row.text ⟨true, .static ['*'], some l⟩ := by
          intro l
          have hs : (ItemStr.static ['*']).text = ['*'] := rfl
          by_cases h : l.text = [] <;> simp [Row.text, marked, h, hs]
        rw [← Option.some.inj h]
        show ['/', '*', '*'] :: (List.map (fun l => marked [' ', '*'] l.text) (l :: ls') ++ [[' ', '*', '/']]) =
          ['/', '*', '*'] :: List.map Row.text (List.map (fun l => ⟨true, .static ['*'], some l⟩) (l :: ls') ++
            [⟨true, .box ['*', '/'], none⟩])
        rw [List.map_append, List.map_map]
        exact congrArg _ (congrArg₂ _ (List.map_congr_left fun l _ => key l) rfl)
  | _ => simp [commentLines, commentMark] at h

/-! ## The end mark of a Java comment -/

/-- The text contains the end mark. -/
theorem close_append_left {x w : Str} (hw : '/' ∉ w) (h : ['*', '/'] <:+: x ++ w) : ['*', '/'] <:+: x := by
  induction x with
  | nil =>
    obtain ⟨s, t, e⟩ := h
    exfalso
    apply hw
    rw [List.nil_append] at e
    rw [← e]
    simp
  | cons c x ih =>
    rw [List.cons_append, List.infix_cons_iff] at h
    rcases h with h | h
    · rcases x with _ | ⟨d, x⟩
      · exfalso
        obtain ⟨t, e⟩ := h
        simp only [List.nil_append, List.cons_append, List.cons.injEq] at e
        apply hw
        rw [← e.2]
        simp
      · refine List.IsPrefix.isInfix ?_
        obtain ⟨t, e⟩ := h
        simp only [List.cons_append, List.nil_append, List.cons.injEq] at e
        obtain ⟨rfl, rfl, -⟩ := e
        exact ⟨x, rfl⟩
    · exact List.infix_cons_iff.2 (.inr (ih h))

theorem close_split {x y : Str} {c : Char} (h1 : c ≠ '*') (h2 : c ≠ '/')
    (h : ['*', '/'] <:+: x ++ c :: y) : ['*', '/'] <:+: x ∨ ['*', '/'] <:+: y := by
  induction x with
  | nil =>
    rw [List.nil_append, List.infix_cons_iff] at h
    rcases h with ⟨t, e⟩ | h
    · simp only [List.cons_append, List.nil_append, List.cons.injEq] at e
      exact absurd e.1.symm h1
    · exact .inr h
  | cons d x ih =>
    rw [List.cons_append, List.infix_cons_iff] at h
    rcases h with ⟨t, e⟩ | h
    · rcases x with _ | ⟨f, x⟩
      · simp only [List.cons_append, List.nil_append, List.cons.injEq] at e
        exact absurd e.2.1.symm h2
      · simp only [List.cons_append, List.nil_append, List.cons.injEq] at e
        obtain ⟨rfl, rfl, -⟩ := e
        exact .inl (List.IsPrefix.isInfix ⟨x, rfl⟩)
    · rcases ih h with h | h
      · exact .inl (List.infix_cons_iff.2 (.inr h))
      · exact .inr h

theorem intercalate_rows (nl a z : Str) (m : Str → Str) (ls : List Str) :
    nl.intercalate (a :: ls.map m ++ [z]) = a ++ (ls.flatMap fun l => nl ++ m l) ++ (nl ++ z) := by
  induction ls generalizing a with
  | nil => simp [List.intercalate]
  | cons l ls ih =>
    rw [List.map_cons, List.cons_append, List.cons_append, List.intercalate, List.intersperse_cons₂,
      List.flatten_cons, List.flatten_cons]
    have := ih (m l)
    rw [List.intercalate, List.cons_append] at this
    rw [this]
    simp

theorem java_inner (w : Str) (h1 : '/' ∉ w) (ls : List Str)
    (h : ∀ l ∈ ls, ¬ ['*', '/'] <:+: l) (a : Str) (ha : ¬ ['*', '/'] <:+: a) :
    ¬ ['*', '/'] <:+: a ++ (ls.flatMap fun l => w ++ marked [' ', '*'] l) ++ (w ++ [' ', '*']) := by
  induction ls generalizing a with
  | nil =>
    intro hi
    rw [List.flatMap_nil, List.append_nil, ← List.append_assoc] at hi
    rcases close_split (by decide) (by decide) hi with hi | hi
    · exact ha (close_append_left h1 hi)
    · exact absurd hi (by decide)
  | cons l ls ih =>
    intro hi
    by_cases hl : l = []
    · have e : a ++ ((l :: ls).flatMap fun l => w ++ marked [' ', '*'] l) ++ (w ++ [' ', '*']) =
          (a ++ w) ++ ' ' :: (['*'] ++ (ls.flatMap fun l => w ++ marked [' ', '*'] l) ++ (w ++ [' ', '*'])) := by
        simp [marked, hl]
      rw [e] at hi
      rcases close_split (by decide) (by decide) hi with hi | hi
      · exact ha (close_append_left h1 hi)
      · exact ih (fun l hl => h l (by simp [hl])) _ (by decide) hi
    · have e : a ++ ((l :: ls).flatMap fun l => w ++ marked [' ', '*'] l) ++ (w ++ [' ', '*']) =
          (a ++ w) ++ ' ' :: (['*'] ++ ' ' :: (l ++ (ls.flatMap fun l => w ++ marked [' ', '*'] l) ++
            (w ++ [' ', '*']))) := by
        simp [marked, hl]
      rw [e] at hi
      rcases close_split (by decide) (by decide) hi with hi | hi
      · exact ha (close_append_left h1 hi)
      · rcases close_split (by decide) (by decide) hi with hi | hi
        · exact absurd hi (by decide)
        · exact ih (fun l hl => h l (by simp [hl])) _ (h l (by simp)) hi

end Genco
