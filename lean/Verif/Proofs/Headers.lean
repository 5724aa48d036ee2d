import Verif.Proofs.Header
import Verif.Model.ImportsB
import Verif.Proofs.Btree

/-!
# Headers made of lines of one kind
-/

set_option autoImplicit false

namespace Genco

open Spec Tokens

variable {ι : Type}

theorem delim_base (esc : Char → Str) (li : ι → List Str) : Delim (baseLang esc li) :=
  ⟨fun _ => ⟨['"'], [], rfl, by simp⟩, fun _ => ⟨[], ['"'], rfl, by simp⟩⟩

theorem delim_js (li : ι → List Str) : Delim (jsLang li) :=
  ⟨fun e => by cases e <;> exact ⟨_, [], rfl, by simp⟩,
   fun e => by cases e <;> exact ⟨[], _, rfl, by simp⟩⟩

theorem delim_dart (li : ι → List Str) : Delim (dartLang li) :=
  ⟨fun _ => ⟨['"'], [], rfl, by simp⟩, fun _ => ⟨[], ['"'], rfl, by simp⟩⟩

theorem marginText_zero (cfg : Config) : marginText cfg 0 = [] := by
  simp only [marginText]; cases cfg.indentation <;> simp

theorem sepShift_push (ls : List (List Bit)) : sepShift (ls.map (fun l => (Sep.push, l))) = 0 := by
  induction ls with
  | nil => rfl
  | cons l ls ih =>
    simp only [sepShift, List.map_cons, List.sum_cons, Sep.shift] at ih ⊢
    rw [ih]; rfl

theorem sepLines_push (L : Lang ι) (cfg : Config) (ls : List (List Bit)) :
    sepLines L cfg 0 (ls.map (fun l => (Sep.push, l))) = ls.map (lineText L) := by
  induction ls with
  | nil => rfl
  | cons l ls ih =>
    simp only [List.map_cons, sepLines, Sep.shift, Int.add_zero, ih]
    simp [marginText_zero]

theorem sepsOk_push {ls : List (List Bit)} (h : ∀ l ∈ ls, LineOk l) :
    SepsOk (ls.map (fun l => (Sep.push, l))) := by
  constructor
  · intro x hx
    simp only [List.mem_map] at hx
    obtain ⟨l, -, rfl⟩ := hx
    trivial
  · intro x hx
    simp only [List.mem_map] at hx
    obtain ⟨l, hl, rfl⟩ := hx
    exact h l hl

theorem sepItems_push (ls : List (List Bit)) :
    (sepItems (ls.map (fun l => (Sep.push, l))) : List (Item ι)) =
      ls.flatMap (fun l => .push :: bitItems l) := by
  simp [sepItems, List.flatMap_map, Sep.item]

/-- Lines each preceded by a push, and a final line request. -/
theorem file_before (L : Lang ι) (hL : Delim L) (cfg : Config) (ls : List (List Bit))
    (h : ∀ l ∈ ls, LineOk l) (body : List (Item ι)) (hb : losesSpace L.langItem body = false) :
    toFileVec L cfg [((Tokens.new : Tokens ι).extend
        (ls.flatMap (fun l => .push :: bitItems l) ++ [.line])).items, body] =
      (toVec L cfg body).map (fileLines (ls.map (lineText L))) := by
  cases ls with
  | nil =>
    refine (file_nohead L cfg body _ (.inr rfl)).trans ?_
    simp only [List.map_nil, fileLines, if_true]
    cases toVec L cfg body <;> rfl
  | cons l ls =>
    have h1 := h l (by simp)
    have h2 : ∀ x ∈ ls, LineOk x := fun x hx => h x (by simp [hx])
    have e : ((l :: ls).flatMap (fun l => Item.push :: bitItems l) ++ [.line] : List (Item ι)) =
        headItems true l (ls.map (fun l => (Sep.push, l))) := by
      simp [headItems, sepItems_push]
    rw [e, extend_lines true l _ h1 (sepsOk_push h2), items_raw_new,
      file_head L hL cfg true l _ h1 (sepsOk_push h2) (sepShift_push ls) body hb, sepLines_push]
    rfl

theorem line_push_line {t : Tokens ι} {i : Item ι} {r : List (Item ι)}
    (ht : t.rev = i :: r) (hi : i = .closeQuote ∨ ∃ s, i = .literal s) :
    (t.item .push).item .line = t.item .line := by
  obtain ⟨rv, n⟩ := t
  subst ht
  rcases hi with rfl | ⟨x, rfl⟩ <;> rfl

/-- Lines each followed by a push, onto a stream: the last push is absorbed by
the line request. -/
theorem extend_after (ls : List (List Bit)) (h : ∀ l ∈ ls, LineOk l) (hne : ls ≠ []) (t : Tokens ι) :
    t.extend (ls.flatMap (fun l => bitItems l ++ [.push]) ++ [.line]) =
      t.extend (bitItems ls.head! ++ (sepItems (ls.tail.map (fun l => (Sep.push, l))) ++ [.line])) := by
  induction ls generalizing t with
  | nil => exact absurd rfl hne
  | cons l ls ih =>
    have h1 := h l (by simp)
    obtain ⟨i, r, hi, hi'⟩ := h1.firm t
    cases ls with
    | nil =>
      simp only [List.flatMap_cons, List.flatMap_nil, List.append_nil, List.append_assoc,
        List.singleton_append, List.head!_cons, List.tail_cons, List.map_nil, sepItems, List.nil_append]
      rw [extend_append, extend_append t _ [Item.line], h1.extend]
      exact line_push_line hi hi'
    | cons m ls =>
      have := ih (fun x hx => h x (by simp [hx])) (by simp)
      have e1 : ((l :: m :: ls).flatMap (fun l => bitItems l ++ [.push]) ++ [.line] : List (Item ι)) =
          (bitItems l ++ [.push]) ++ ((m :: ls).flatMap (fun l => bitItems l ++ [.push]) ++ [.line]) := by
        simp
      have e2 : (bitItems (l :: m :: ls).head! ++
          (sepItems ((l :: m :: ls).tail.map (fun l => (Sep.push, l))) ++ [.line]) : List (Item ι)) =
          (bitItems l ++ [.push]) ++ (bitItems (m :: ls).head! ++
            (sepItems ((m :: ls).tail.map (fun l => (Sep.push, l))) ++ [.line])) := by
        simp [sepItems, Sep.item]
      rw [e1, e2, extend_append, this]
      exact (extend_append ..).symm

/-- Lines each followed by a push, and a final line request. -/
theorem file_after (L : Lang ι) (hL : Delim L) (cfg : Config) (ls : List (List Bit))
    (h : ∀ l ∈ ls, LineOk l) (body : List (Item ι)) (hb : losesSpace L.langItem body = false) :
    toFileVec L cfg [((Tokens.new : Tokens ι).extend
        (ls.flatMap (fun l => bitItems l ++ [.push]) ++ [.line])).items, body] =
      (toVec L cfg body).map (fileLines (ls.map (lineText L))) := by
  cases ls with
  | nil =>
    refine (file_nohead L cfg body _ (.inr rfl)).trans ?_
    simp only [List.map_nil, fileLines, if_true]
    cases toVec L cfg body <;> rfl
  | cons l ls =>
    have h1 := h l (by simp)
    have h2 : ∀ x ∈ ls, LineOk x := fun x hx => h x (by simp [hx])
    rw [extend_after _ h (by simp)]
    have e : (bitItems l ++ (sepItems (ls.map (fun l => (Sep.push, l))) ++ [.line]) : List (Item ι)) =
        headItems false l (ls.map (fun l => (Sep.push, l))) := by
      simp [headItems]
    simp only [List.head!_cons, List.tail_cons]
    rw [e, extend_lines false l _ h1 (sepsOk_push h2), items_raw_new,
      file_head L hL cfg false l _ h1 (sepsOk_push h2) (sepShift_push ls) body hb, sepLines_push]
    rfl

/-- No header at all. -/
theorem file_none (L : Lang ι) (cfg : Config) (body : List (Item ι)) :
    toFileVec L cfg [((Tokens.new : Tokens ι).extend []).items, body] =
      (toVec L cfg body).map (fileLines []) := by
  refine (file_nohead L cfg body _ (.inl rfl)).trans ?_
  cases toVec L cfg body <;> rfl

/-- A leading paragraph of one line, then lines each followed by a push. -/
theorem file_para (L : Lang ι) (hL : Delim L) (cfg : Config) (p : List Bit) (hp : LineOk p)
    (ls : List (List Bit)) (h : ∀ l ∈ ls, LineOk l) (body : List (Item ι))
    (hb : losesSpace L.langItem body = false) :
    toFileVec L cfg [(((Tokens.new : Tokens ι).extend (bitItems p ++ [.line])).extend
        (ls.flatMap (fun l => bitItems l ++ [.push]) ++ [.line])).items, body] =
      (toVec L cfg body).map (fileLines (paragraphs [[lineText L p], ls.map (lineText L)])) := by
  cases ls with
  | nil =>
    have : ((Tokens.new : Tokens ι).extend (bitItems p ++ [.line])).extend
        (([] : List (List Bit)).flatMap (fun l => bitItems l ++ [.push]) ++ [.line]) =
        (Tokens.new : Tokens ι).extend (headItems false p []) := by
      have e := extend_lines (ι := ι) false p [] hp ⟨by simp, by simp⟩
      have hi : (headItems false p [] : List (Item ι)) = bitItems p ++ [.line] := by
        simp [headItems, sepItems]
      rw [hi] at e ⊢
      rw [e]
      simp [Tokens.raw, Tokens.extend, Tokens.item, Tokens.line, Tokens.new, lineRev]
      obtain ⟨i, r, hi, hi'⟩ := hp.firm (Tokens.new : Tokens ι)
      simp only [Tokens.raw, Tokens.new, List.append_nil] at hi
      rw [hi]
      rcases hi' with rfl | ⟨x, rfl⟩ <;> rfl
    rw [this, extend_lines false p [] hp ⟨by simp, by simp⟩, items_raw_new,
      file_head L hL cfg false p _ hp ⟨by simp, by simp⟩ rfl body hb]
    simp [sepLines, paragraphs]
  | cons l ls =>
    have h1 := h l (by simp)
    have h2 : ∀ x ∈ ls, LineOk x := fun x hx => h x (by simp [hx])
    have ok : SepsOk ((Sep.line, l) :: ls.map (fun l => (Sep.push, l))) := by
      have := sepsOk_push h2
      constructor
      · intro x hx
        rcases List.mem_cons.1 hx with rfl | hx
        · trivial
        · exact this.seps x hx
      · intro x hx
        rcases List.mem_cons.1 hx with rfl | hx
        · exact h1
        · exact this.lines x hx
    rw [extend_after _ h (by simp), ← extend_append]
    have e : (bitItems p ++ [.line] ++ (bitItems (l :: ls).head! ++
        (sepItems ((l :: ls).tail.map (fun l => (Sep.push, l))) ++ [.line])) : List (Item ι)) =
        headItems false p ((Sep.line, l) :: ls.map (fun l => (Sep.push, l))) := by
      simp [headItems, sepItems, Sep.item]
    have hz : sepShift ((Sep.line, l) :: ls.map (fun l => (Sep.push, l))) = 0 := by
      have := sepShift_push ls
      simp only [sepShift, List.map_cons, List.sum_cons, Sep.shift] at this ⊢
      rw [this]; rfl
    rw [e, extend_lines false p _ hp ok, items_raw_new, file_head L hL cfg false p _ hp ok hz body hb]
    simp only [sepLines, Sep.shift, Int.add_zero, sepLines_push]
    simp [paragraphs, marginText_zero]

/-- A leading paragraph of one line only. -/
theorem file_para_only (L : Lang ι) (hL : Delim L) (cfg : Config) (p : List Bit) (hp : LineOk p)
    (body : List (Item ι)) (hb : losesSpace L.langItem body = false) :
    toFileVec L cfg [((Tokens.new : Tokens ι).extend (bitItems p ++ [.line])).items, body] =
      (toVec L cfg body).map (fileLines [lineText L p]) := by
  have hi : (bitItems p ++ [.line] : List (Item ι)) = headItems false p [] := by
    simp [headItems, sepItems]
  rw [hi, extend_lines false p [] hp ⟨by simp, by simp⟩, items_raw_new,
    file_head L hL cfg false p _ hp ⟨by simp, by simp⟩ rfl body hb]
  simp [sepLines]

end Genco
