import Verif.Proofs.Shift
import Verif.Proofs.Headers

/-!
# Headers made of pieces of code

As `Proofs/Header.lean`, for pieces that may span several lines.
-/

set_option autoImplicit false

namespace Genco

open Spec Tokens

variable {ι : Type}

/-! ## Appending code -/

def Spec.Code.append : Code ι → Code ι → Code ι
  | .nil, d => d
  | .item i r, d => .item i (r.append d)
  | .quote e b r, d => .quote e b (r.append d)

theorem append_items (c d : Code ι) : (c.append d).items = c.items ++ d.items := by
  match c with
  | .nil => rfl
  | .item i r => simp [Code.append, Code.items, append_items r d]
  | .quote e b r => simp [Code.append, Code.items, append_items r d]

theorem append_plain (c d : Code ι) : (c.append d).plain = (c.plain && d.plain) := by
  match c with
  | .nil => simp [Code.append, Code.plain]
  | .item i r => simp [Code.append, Code.plain, append_plain r d, Bool.and_assoc]
  | .quote e b r => simp [Code.append, Code.plain, append_plain r d, Bool.and_assoc]

theorem append_acts (L : Lang ι) (cfg : Config) (c d : Code ι) :
    (c.append d).acts L cfg = c.acts L cfg ++ d.acts L cfg := by
  match c with
  | .nil => rfl
  | .item i r => simp [Code.append, Code.acts, append_acts L cfg r d]
  | .quote e b r => simp [Code.append, Code.acts, append_acts L cfg r d]

/-! ## Empty texts -/

theorem seen_cons (a : Act) (l : List Act) : seen (a :: l) = if a = .text [] then seen l else a :: seen l := by
  by_cases h : a = .text [] <;> simp [seen, h]

theorem seen_append (a b : List Act) : seen (a ++ b) = seen a ++ seen b := by simp [seen]

theorem actsSt_seen (st : LSt) (acts : List Act) : actsSt st (seen acts) = actsSt st acts := by
  induction acts generalizing st with
  | nil => rfl
  | cons a l ih =>
    rw [seen_cons]
    split
    · rename_i h; subst h; rw [ih]; rfl
    · exact ih _

theorem vecActs_seen (cfg : Config) (st : LSt) (v : VecState) (acts : List Act) :
    vecActs cfg st v (seen acts) = vecActs cfg st v acts := by
  induction acts generalizing st v with
  | nil => rfl
  | cons a l ih =>
    rw [seen_cons]
    split
    · rename_i h; subst h; rw [ih]; rfl
    · exact ih _ _

/-! ## Lines of a piece -/

/-- The lines code gives on its own. -/
def ownLines (cfg : Config) (acts : List Act) : List Str := (vecActs cfg .new .new acts).intoVec

theorem ownLines_seen (cfg : Config) (acts : List Act) : ownLines cfg (seen acts) = ownLines cfg acts := by
  rw [ownLines, vecActs_seen, ownLines]

theorem vec_piece (cfg : Config) (B : List Act) (hB : Whole B) (w : Whitespace)
    (hw : w = .push ∨ w = .line) (k : Nat) (v : VecState) :
    actsSt ⟨w, 0, (k : Int)⟩ B = ⟨.none, 0, (k : Int)⟩ ∧
    (vecActs cfg ⟨w, 0, (k : Int)⟩ v B).intoVec =
      v.intoVec ++ ((if w = .line then [[]] else []) ++ (ownLines cfg B).map (movedIn cfg k)) := by
  obtain ⟨s, r, hB1, hs⟩ := hB.first
  have hin : ∀ p, p <+: r → 0 ≤ (p.map actInd).sum := by
    intro p hp
    have := hB.inside (.text s :: p) (by rw [hB1]; simpa using hp)
    simpa [actInd] using this
  have z : marginText cfg 0 = [] := by unfold marginText; cases cfg.indentation <;> simp
  have f1 : actsSt ⟨w, 0, (k : Int)⟩ B = actsSt ⟨.none, 0, (k : Int)⟩ r := by
    rw [hB1, actsSt]; simp [actSt, hs, LSt.flushed]
  have g1 := actsSt_last ⟨w, 0, (k : Int)⟩ B hB.last
  have g2 := actsSt_indent ⟨w, 0, (k : Int)⟩ B
  rw [hB.level] at g2
  have m0 : Moved cfg k (v.intoVec ++ (if w = .line then [[]] else [])) ⟨.none, 0, 0⟩ ⟨.none, 0, (k : Int)⟩
      ⟨s, []⟩ ⟨marginText cfg k ++ s, v.intoVec ++ (if w = .line then [[]] else [])⟩ :=
    ⟨rfl, rfl, by simp, by simp, hs, by simp [movedIn, hs], by simp⟩
  have m := moved_acts cfg k _ r _ _ _ _ m0 (by simpa using hin)
  have f2 : vecActs cfg ⟨w, 0, (k : Int)⟩ v B = vecActs cfg ⟨.none, 0, (k : Int)⟩
      ⟨marginText cfg k ++ s, v.intoVec ++ (if w = .line then [[]] else [])⟩ r := by
    rw [hB1, vecActs]
    rcases hw with rfl | rfl <;>
      simp [actSt, vecAct, hs, LSt.flushed, flushPad, VecState.intoVec]
  have f3 : vecActs cfg .new .new B = vecActs cfg ⟨.none, 0, 0⟩ ⟨s, []⟩ r := by
    rw [hB1, vecActs]
    simp [actSt, vecAct, hs, LSt.flushed, flushPad, LSt.new, VecState.new, z]
  constructor
  · generalize actsSt ⟨w, 0, (k : Int)⟩ B = x at g1 g2
    obtain ⟨a, b, c⟩ := x
    dsimp only at g1 g2
    rw [g1.1, g1.2, g2, Int.add_zero]
  · rw [f2, ownLines, f3]
    have e1 := m.buf'
    have e2 := m.target
    generalize vecActs cfg ⟨.none, 0, 0⟩ ⟨s, []⟩ r = x at e1 e2
    generalize vecActs cfg ⟨.none, 0, (k : Int)⟩ _ r = x' at e1 e2
    rw [show x'.intoVec = x'.target ++ [x'.lineBuffer] from rfl, e1, e2]
    simp [VecState.intoVec]

theorem vec_first (B : List Act) (hB : Whole B) : actsSt .new B = ⟨.none, 0, 0⟩ := by
  have g1 := actsSt_last .new B hB.last
  have g2 := actsSt_indent .new B
  rw [hB.level] at g2
  generalize actsSt .new B = x at g1 g2
  obtain ⟨a, b, c⟩ := x
  dsimp only at g1 g2
  rw [g1.1, g1.2, g2]
  rfl

def onFirst (p : Str) : List Str → List Str
  | [] => []
  | l :: r => (p ++ l) :: r

theorem vec_onFirst (cfg : Config) (p : Str) (acts : List Act) (st : LSt) (v : VecState) :
    ∀ v', v'.intoVec = onFirst p v.intoVec →
      (vecActs cfg st v' acts).intoVec = onFirst p (vecActs cfg st v acts).intoVec := by
  induction acts generalizing st v with
  | nil => exact fun v' h => h
  | cons a r ih =>
    intro v' h
    rw [vecActs, vecActs]
    refine ih _ _ _ ?_
    obtain ⟨b, t⟩ := v
    obtain ⟨b', t'⟩ := v'
    simp only [VecState.intoVec] at h
    cases a with
    | text s =>
      by_cases hs : s = []
      · simpa [vecAct, hs, VecState.intoVec] using h
      · cases t with
        | nil =>
          cases t' with
          | nil =>
            simp only [List.nil_append, onFirst, List.cons.injEq, and_true] at h
            subst h
            cases hl : st.line <;> simp [vecAct, hs, hl, VecState.intoVec, onFirst]
          | cons x t' => simp [onFirst] at h
        | cons x t =>
          cases t' with
          | nil => have := congrArg List.length h; simp [onFirst] at this
          | cons x' t' =>
            simp only [List.cons_append, onFirst, List.cons.injEq] at h
            obtain ⟨rfl, h⟩ := h
            have := List.append_inj' h rfl
            obtain ⟨rfl, hb⟩ := this
            cases hb
            cases hl : st.line <;> simp [vecAct, hs, hl, VecState.intoVec, onFirst]
    | _ => exact h

theorem intoVec_ne (v : VecState) : v.intoVec ≠ [] := by simp [VecState.intoVec]

theorem attach_eq (p s : Str) (t : List Str) (b : Str) :
    attach p s (t ++ [b]) = onFirst p (t ++ [b ++ s]) := by
  cases t with
  | nil => simp [attach, onFirst]
  | cons x t =>
    have : ∃ y q, t ++ [b] = y :: q := by cases t <;> simp
    obtain ⟨y, q, e⟩ := this
    simp only [List.cons_append, e, attach, onFirst]
    rw [← e]
    simp

/-- Lines of code between a text in front and one behind. -/
theorem own_around (cfg : Config) (P V : List Act) (p s : Str) (hs : s ≠ [])
    (hP : ∀ x : Str, x ≠ [] → vecActs cfg .new .new (P ++ [.text x]) = ⟨p ++ x, []⟩ ∧
      actsSt .new (P ++ [.text x]) = ⟨.none, 0, 0⟩)
    (hV : Whole V) :
    ownLines cfg (P ++ V ++ [.text s]) = attach p s (ownLines cfg V) := by
  obtain ⟨x, r, e, hx⟩ := hV.first
  have z : marginText cfg 0 = [] := by unfold marginText; cases cfg.indentation <;> simp
  obtain ⟨h1, h2⟩ := hP x hx
  have f3 : vecActs cfg .new .new V = vecActs cfg ⟨.none, 0, 0⟩ ⟨x, []⟩ r := by
    rw [e, vecActs]
    simp [actSt, vecAct, hx, LSt.flushed, flushPad, LSt.new, VecState.new, z]
  have f4 : actsSt .new V = actsSt ⟨.none, 0, 0⟩ r := by
    rw [e, actsSt]; simp [actSt, hx, LSt.flushed, LSt.new]
  have gB := actsSt_last .new V hV.last
  rw [f4] at gB
  have e' : P ++ V ++ [.text s] = (P ++ [.text x]) ++ (r ++ [.text s]) := by rw [e]; simp
  unfold ownLines
  rw [e', vecActs_append, h1, h2, vecActs_append]
  have k := vec_onFirst cfg p r ⟨.none, 0, 0⟩ ⟨x, []⟩ ⟨p ++ x, []⟩ rfl
  rw [f3]
  generalize vecActs cfg ⟨.none, 0, 0⟩ ⟨x, []⟩ r = w at k
  generalize vecActs cfg ⟨.none, 0, 0⟩ ⟨p ++ x, []⟩ r = w' at k
  generalize actsSt ⟨.none, 0, 0⟩ r = st at gB
  obtain ⟨l, sp, ind⟩ := st
  dsimp only at gB
  obtain ⟨rfl, rfl⟩ := gB
  obtain ⟨b, t⟩ := w
  obtain ⟨b', t'⟩ := w'
  simp only [vecActs, vecAct, hs, if_false, VecState.intoVec, attach_eq] at k ⊢
  have hp : flushPad cfg ⟨.none, 0, ind⟩ = [] := by simp [flushPad]
  rw [hp, List.nil_append]
  cases t with
  | nil =>
    cases t' with
    | nil => simp only [List.nil_append, onFirst, List.cons.injEq, and_true] at k ⊢; rw [k]; simp
    | cons x t' => simp [onFirst] at k
  | cons x t =>
    cases t' with
    | nil => have := congrArg List.length k; simp [onFirst] at this
    | cons x' t' =>
      simp only [List.cons_append, onFirst, List.cons.injEq] at k ⊢
      obtain ⟨rfl, h⟩ := k
      obtain ⟨rfl, hb⟩ := List.append_inj' h rfl
      cases hb
      exact ⟨rfl, rfl⟩

/-! ## Separated pieces -/

/-- A piece of code that can stand in a header. -/
structure PieceOk (L : Lang ι) (cfg : Config) (c : Code ι) : Prop where
  plain : c.plain = true
  whole : Whole (seen (c.acts L cfg))
  first : ∃ x r, c.items = x :: r ∧ isWs x = false
  last : ∃ r x, c.items = r ++ [x] ∧ isWs x = false
  normal : (fromIter c.items).items.map erase = c.items.map erase

/-- Erased items of a stream. -/
def norm (l : List (Item ι)) : List (Item ι) := (fromIter l).items.map erase

theorem norm_split (w l : List (Item ι)) (i : Item ι) (hi : isWs i = false) :
    norm (w ++ i :: l) = norm w ++ erase i :: norm l := fromIter_split w l i hi

theorem norm_piece {L : Lang ι} {cfg : Config} {c : Code ι} (h : PieceOk L cfg c) (w l : List (Item ι)) :
    norm (w ++ (c.items ++ l)) = norm w ++ (c.items.map erase ++ norm l) := by
  obtain ⟨r, z, e, hz⟩ := h.last
  obtain ⟨x, q, e', hx⟩ := h.first
  have n0 : norm ([] : List (Item ι)) = [] := rfl
  have n1 : norm (w ++ (c.items ++ l)) = norm (w ++ c.items) ++ norm l := by
    rw [e]
    have e1 : w ++ (r ++ [z] ++ l) = (w ++ r) ++ z :: l := by simp
    have e2 : w ++ (r ++ [z]) = (w ++ r) ++ z :: [] := by simp
    rw [e1, e2, norm_split _ _ _ hz, norm_split _ _ _ hz, n0]
    simp
  have n2 : norm (w ++ c.items) = norm w ++ norm c.items := by
    rw [e', norm_split _ _ _ hx]
    have := norm_split [] q x hx
    rw [List.nil_append, n0, List.nil_append] at this
    rw [this]
  have hn : norm c.items = c.items.map erase := h.normal
  rw [n1, n2, hn, List.append_assoc]

/-- Items of separated pieces. -/
def secItems (ls : List (Sep × Code ι)) : List (Item ι) := ls.flatMap (fun l => l.1.item :: l.2.items)

/-- What separated pieces ask for. -/
def secActs (L : Lang ι) (cfg : Config) (ls : List (Sep × Code ι)) : List Act :=
  ls.flatMap (fun l => l.1.act :: l.2.acts L cfg)

/-- The calls: whitespace that comes to the separator, and the piece. -/
def rawItems (ls : List (List (Item ι) × Code ι)) : List (Item ι) := ls.flatMap (fun l => l.1 ++ l.2.items)

theorem norm_raw {L : Lang ι} {cfg : Config} (ls : List (List (Item ι) × Sep × Code ι))
    (h : ∀ l ∈ ls, norm l.1 = [l.2.1.item] ∧ PieceOk L cfg l.2.2) (tail : List (Item ι)) :
    norm (rawItems (ls.map (fun l => (l.1, l.2.2))) ++ tail) =
      (secItems (ls.map (fun l => l.2))).map erase ++ norm tail := by
  induction ls with
  | nil => rfl
  | cons l ls ih =>
    obtain ⟨h1, h2⟩ := h l (by simp)
    have ih := ih (fun x hx => h x (by simp [hx]))
    simp only [rawItems, secItems, List.map_cons, List.flatMap_cons, List.append_assoc] at ih ⊢
    rw [norm_piece h2, h1, ih]
    cases l.2.1 <;> simp [Sep.item, erase]

theorem res_secs (L : Lang ι) (cfg : Config) (ls : List (Sep × Code ι))
    (h : ∀ l ∈ ls, l.1.ok ∧ l.2.plain = true) (rest : List (Item ι)) :
    res L cfg false [Frame.default] (secItems ls ++ rest) =
      pre (secActs L cfg ls) (res L cfg false [Frame.default] rest) := by
  induction ls with
  | nil => rfl
  | cons l ls ih =>
    obtain ⟨h1, h2⟩ := h l (by simp)
    have ih := ih (fun x hx => h x (by simp [hx]))
    simp only [secItems, secActs, List.flatMap_cons, List.append_assoc, List.cons_append] at ih ⊢
    rw [res_sep L cfg _ h1, res_code L cfg _ h2 _ _ _ rfl rfl, ih, pre_pre, pre_pre]
    simp

/-- The lines of separated pieces. -/
def secLines (L : Lang ι) (cfg : Config) (k : Nat) : List (Sep × Code ι) → List Str
  | [] => []
  | l :: ls =>
    (if l.1 = .line then [[]] else []) ++
    ((ownLines cfg (l.2.acts L cfg)).map (movedIn cfg ((k : Int) + l.1.shift).toNat) ++
      secLines L cfg ((k : Int) + l.1.shift).toNat ls)

/-- The separators never go left of the margin. -/
def secDepth : Nat → List (Sep × Code ι) → Option Nat
  | k, [] => some k
  | k, l :: ls => if 0 ≤ (k : Int) + l.1.shift then secDepth ((k : Int) + l.1.shift).toNat ls else none

theorem vec_secs (L : Lang ι) (cfg : Config) (ls : List (Sep × Code ι))
    (h : ∀ l ∈ ls, l.1.ok ∧ PieceOk L cfg l.2) (k d : Nat) (hd : secDepth k ls = some d) (v : VecState) :
    actsSt ⟨.none, 0, (k : Int)⟩ (secActs L cfg ls) = ⟨.none, 0, (d : Int)⟩ ∧
      (vecActs cfg ⟨.none, 0, (k : Int)⟩ v (secActs L cfg ls)).intoVec = v.intoVec ++ secLines L cfg k ls := by
  induction ls generalizing k v with
  | nil =>
    simp only [secDepth, Option.some.injEq] at hd
    subst hd
    simp [secActs, actsSt, vecActs, secLines]
  | cons l ls ih =>
    obtain ⟨h1, h2⟩ := h l (by simp)
    have ih := ih (fun x hx => h x (by simp [hx]))
    simp only [secDepth] at hd
    split at hd
    · rename_i hk
      have e : secActs L cfg (l :: ls) = [l.1.act] ++ (l.2.acts L cfg ++ secActs L cfg ls) := by
        simp [secActs]
      have hn : (((k : Int) + l.1.shift).toNat : Int) = (k : Int) + l.1.shift := Int.toNat_of_nonneg hk
      generalize hm : ((k : Int) + l.1.shift).toNat = m at hd hn
      have es : ∃ w, (w = .push ∨ w = .line) ∧ actsSt ⟨.none, 0, (k : Int)⟩ [l.1.act] = ⟨w, 0, (m : Int)⟩ ∧
          (l.1 = .line ↔ w = .line) := by
        obtain ⟨s, b⟩ := l
        cases s with
        | push => exact ⟨.push, .inl rfl, by simp [actsSt, actSt, Sep.act, Sep.shift] at hn ⊢; omega, by simp⟩
        | line => exact ⟨.line, .inr rfl, by simp [actsSt, actSt, Sep.act, Sep.shift] at hn ⊢; omega, by simp⟩
        | ind n => exact ⟨.push, .inl rfl, by simp [actsSt, actSt, Sep.act, Sep.shift] at hn ⊢; omega, by simp⟩
      obtain ⟨w, hw, hst, hline⟩ := es
      have hv : vecActs cfg ⟨.none, 0, (k : Int)⟩ v [l.1.act] = v := by
        obtain ⟨s, b⟩ := l
        cases s <;> rfl
      obtain ⟨p1, p2⟩ := vec_piece cfg _ h2.whole w hw m v
      rw [actsSt_seen] at p1
      rw [vecActs_seen, ownLines_seen] at p2
      rw [e, vecActs_append, actsSt_append, hst, hv, vecActs_append, actsSt_append, p1]
      obtain ⟨q1, q2⟩ := ih m hd (vecActs cfg ⟨w, 0, (m : Int)⟩ v (l.2.acts L cfg))
      refine ⟨q1, ?_⟩
      rw [q2, p2]
      simp only [secLines, hline, hm, List.append_assoc]
    · simp at hd

/-- A file whose header is made of pieces. -/
theorem file_pieces (L : Lang ι) (hL : Delim L) (cfg : Config) (first : Code ι) (hf : PieceOk L cfg first)
    (ls : List (List (Item ι) × Sep × Code ι))
    (h : ∀ l ∈ ls, norm l.1 = [l.2.1.item] ∧ l.2.1.ok ∧ PieceOk L cfg l.2.2)
    (hd : secDepth 0 (ls.map (fun l => l.2)) = some 0)
    (body : List (Item ι)) (hb : losesSpace L.langItem body = false) :
    toFileVec L cfg [(fromIter (first.items ++ (rawItems (ls.map (fun l => (l.1, l.2.2))) ++
        [.push, .line]))).items, body] =
      (toVec L cfg body).map (fileLines (ownLines cfg (first.acts L cfg) ++
        secLines L cfg 0 (ls.map (fun l => l.2)))) := by
  have hn : norm (first.items ++ (rawItems (ls.map (fun l => (l.1, l.2.2))) ++ [Item.push, .line])) =
      (first.items ++ (secItems (ls.map (fun l : List (Item ι) × Sep × Code ι => l.2)) ++
        [Item.line])).map erase := by
    have := norm_piece hf [] (rawItems (ls.map (fun l => (l.1, l.2.2))) ++ [Item.push, .line])
    rw [List.nil_append] at this
    rw [this, norm_raw (L := L) (cfg := cfg) ls (fun l hl => ⟨(h l hl).1, (h l hl).2.2⟩)]
    simp only [List.map_append]
    rfl
  rw [toFileVec_congr L cfg (b := [first.items ++
      (secItems (ls.map (fun l : List (Item ι) × Sep × Code ι => l.2)) ++ [Item.line]), body])
    (by rw [List.map_cons, List.map_cons, List.map_cons, List.map_cons]; exact congrArg (· :: [body.map erase]) hn)]
  have h' : ∀ l ∈ ls.map (fun l => l.2), l.1.ok ∧ PieceOk L cfg l.2 := by
    intro l hl
    obtain ⟨x, hx, rfl⟩ := List.mem_map.1 hl
    exact (h x hx).2
  generalize ls.map (fun l => l.2) = ps at hd h'
  have hr : resolveItems L cfg (first.items ++ (secItems ps ++ [Item.line])) =
      (first.acts L cfg ++ (secActs L cfg ps ++ [.line]), some ()) := by
    have e : ∀ l : List (Item ι), resolveItems L cfg l =
      ((res L cfg false [Frame.default] l).1, (res L cfg false [Frame.default] l).2.map (fun _ => ())) :=
      fun l => rfl
    rw [e, res_code L cfg _ hf.plain _ _ _ rfl rfl, res_secs L cfg ps (fun l hl => ⟨(h' l hl).1, (h' l hl).2.plain⟩)]
    rw [res_cons]
    simp [pre, res_nil]
  rw [toFileVec_eq, toVec_eq]
  simp only [resolveStreams, hr]
  have hnl := loses_res L hL.opens cfg body hb
  rw [← resolveItems_res] at hnl
  have a1 := vec_first _ hf.whole
  rw [actsSt_seen] at a1
  obtain ⟨a2, a3⟩ := vec_secs L cfg ps h' 0 0 hd (vecActs cfg .new .new (first.acts L cfg))
  simp only [Int.natCast_zero] at a2 a3
  have h1 : actsSt .new (first.acts L cfg ++ (secActs L cfg ps ++ [.line])) = ⟨.line, 0, 0⟩ := by
    rw [actsSt_append, a1, actsSt_append, a2]; rfl
  have h2 : (vecActs cfg .new .new (first.acts L cfg ++ (secActs L cfg ps ++ [.line]))).intoVec =
      ownLines cfg (first.acts L cfg) ++ secLines L cfg 0 ps := by
    rw [vecActs_append, a1, vecActs_append, a2]
    have : ∀ v, vecActs cfg ⟨.none, 0, 0⟩ v [.line] = v := fun _ => rfl
    rw [this, a3]
    rfl
  have hne : ownLines cfg (first.acts L cfg) ++ secLines L cfg 0 ps ≠ [] := by
    intro e
    rw [List.append_eq_nil_iff] at e
    exact intoVec_ne _ e.1
  generalize resolveItems L cfg body = rb at hnl ⊢
  obtain ⟨acts, o⟩ := rb
  cases o with
  | none => rfl
  | some u =>
    simp only [pre, List.append_nil, Option.map_some, Option.some.injEq]
    rw [vecActs_append, h1]
    cases hv : acts.any visible with
    | false =>
      rw [vecActs_invisible _ _ _ _ hv, vecActs_invisible _ _ _ _ hv, h2]
      simp only [fileLines, VecState.new, VecState.intoVec]
      rw [if_neg hne]
      simp
    | true =>
      rw [vecActs_body cfg acts hnl 0 _ hv, h2]
      have := vecActs_ne cfg acts hv
      simp only [fileLines]
      rw [if_neg hne, if_neg this]
      rfl

/-! ## Blocks of pieces -/

theorem secDepth_append (a b : List (Sep × Code ι)) (k d : Nat) (h : secDepth k a = some d) :
    secDepth k (a ++ b) = secDepth d b := by
  induction a generalizing k with
  | nil => simp only [secDepth, Option.some.injEq] at h; subst h; rfl
  | cons l a ih =>
    simp only [secDepth, List.cons_append] at h ⊢
    split at h
    · rename_i hk; rw [if_pos hk]; exact ih _ h
    · simp at h

theorem secLines_append (L : Lang ι) (cfg : Config) (a b : List (Sep × Code ι)) (k d : Nat)
    (h : secDepth k a = some d) : secLines L cfg k (a ++ b) = secLines L cfg k a ++ secLines L cfg d b := by
  induction a generalizing k with
  | nil => simp only [secDepth, Option.some.injEq] at h; subst h; rfl
  | cons l a ih =>
    simp only [secDepth] at h
    split at h
    · simp only [secLines, List.cons_append, ih _ h, List.append_assoc]
    · simp at h

/-- Pieces that belong together. -/
structure Block (ι : Type) where
  first : Code ι
  rest : List (List (Item ι) × Sep × Code ι)

structure BlockOk (L : Lang ι) (cfg : Config) (b : Block ι) : Prop where
  first : PieceOk L cfg b.first
  rest : ∀ l ∈ b.rest, norm l.1 = [l.2.1.item] ∧ l.2.1.ok ∧ PieceOk L cfg l.2.2
  depth : secDepth 0 (b.rest.map (fun l => l.2)) = some 0

/-- The calls for a block. -/
def Block.items (b : Block ι) : List (Item ι) :=
  b.first.items ++ (rawItems (b.rest.map (fun l => (l.1, l.2.2))) ++ [.push, .line])

/-- The lines of a block. -/
def Block.lines (L : Lang ι) (cfg : Config) (b : Block ι) : List Str :=
  ownLines cfg (b.first.acts L cfg) ++ secLines L cfg 0 (b.rest.map (fun l => l.2))

/-- Blocks as further pieces. -/
def asRest (bs : List (Block ι)) : List (List (Item ι) × Sep × Code ι) :=
  bs.flatMap (fun b => ([.push, .line], .line, b.first) :: b.rest)

theorem items_asRest (bs : List (Block ι)) :
    rawItems ((asRest bs).map (fun l => (l.1, l.2.2))) ++ [.push, .line] =
      ([.push, .line] ++ bs.flatMap Block.items : List (Item ι)) := by
  induction bs with
  | nil => rfl
  | cons b bs ih =>
    simp only [asRest, rawItems, List.flatMap_cons, List.map_append, List.flatMap_append, List.map_cons,
      List.append_assoc, Block.items] at ih ⊢
    rw [ih]

theorem depth_asRest {L : Lang ι} {cfg : Config} (bs : List (Block ι)) (h : ∀ b ∈ bs, BlockOk L cfg b) :
    secDepth 0 ((asRest bs).map (fun l => l.2)) = some 0 := by
  induction bs with
  | nil => rfl
  | cons b bs ih =>
    have ih := ih (fun x hx => h x (by simp [hx]))
    have hb := (h b (by simp)).depth
    simp only [asRest, List.flatMap_cons, List.map_append, List.map_cons] at ih ⊢
    rw [List.cons_append]
    refine Eq.trans (b := secDepth 0 (b.rest.map (fun l => l.2) ++ _)) rfl ?_
    rw [secDepth_append _ _ _ _ hb, ih]

theorem movedIn_zero (cfg : Config) : movedIn cfg 0 = id := by
  funext l
  unfold movedIn
  rw [marginText_zero]
  split
  · rename_i h; rw [h]; rfl
  · rfl

theorem lines_asRest {L : Lang ι} {cfg : Config} (bs : List (Block ι)) (h : ∀ b ∈ bs, BlockOk L cfg b) :
    secLines L cfg 0 ((asRest bs).map (fun l => l.2)) = bs.flatMap (fun b => [] :: b.lines L cfg) := by
  induction bs with
  | nil => rfl
  | cons b bs ih =>
    have ih := ih (fun x hx => h x (by simp [hx]))
    have hb := (h b (by simp)).depth
    simp only [asRest, List.flatMap_cons, List.map_append, List.map_cons] at ih ⊢
    rw [List.cons_append]
    simp only [secLines, Sep.shift]
    have e : ((0 : Nat) : Int) + 0 = 0 := rfl
    rw [e, Int.toNat_zero, secLines_append _ _ _ _ _ _ hb, ih, movedIn_zero]
    simp [Block.lines]

theorem blockLines_ne (L : Lang ι) (cfg : Config) (b : Block ι) : b.lines L cfg ≠ [] := by
  intro e
  rw [Block.lines, List.append_eq_nil_iff] at e
  exact intoVec_ne _ e.1

theorem paragraphs_flat (p : List Str) (hp : p ≠ []) (ps : List (List Str)) (h : ∀ p ∈ ps, p ≠ []) :
    paragraphs (p :: ps) = p ++ ps.flatMap (fun q => [] :: q) := by
  induction ps generalizing p with
  | nil => simp [paragraphs, hp]
  | cons q ps ih =>
    have hq := h q (by simp)
    have := ih q hq (fun x hx => h x (by simp [hx]))
    rw [paragraphs, if_neg hp, this, if_neg (by simp [hq])]
    simp

/-- A file whose header is made of blocks. -/
theorem file_blocks (L : Lang ι) (hL : Delim L) (cfg : Config) (bs : List (Block ι))
    (h : ∀ b ∈ bs, BlockOk L cfg b) (body : List (Item ι)) (hb : losesSpace L.langItem body = false) :
    toFileVec L cfg [(fromIter (bs.flatMap Block.items)).items, body] =
      (toVec L cfg body).map (fileLines (paragraphs (bs.map (Block.lines L cfg)))) := by
  cases bs with
  | nil => exact file_none L cfg body
  | cons b bs =>
    have h0 := h b (by simp)
    have h1 : ∀ b ∈ bs, BlockOk L cfg b := fun x hx => h x (by simp [hx])
    have e : (b :: bs).flatMap Block.items = b.first.items ++ (rawItems ((b.rest ++ asRest bs).map
        (fun l => (l.1, l.2.2))) ++ [.push, .line]) := by
      have := items_asRest bs
      simp only [rawItems, List.map_append, List.flatMap_append, List.append_assoc, List.flatMap_cons,
        Block.items] at this ⊢
      rw [this]
    rw [e, file_pieces L hL cfg b.first h0.first (b.rest ++ asRest bs) ?_ ?_ body hb]
    · refine congrArg (fun x => Option.map (fileLines x) _) ?_
      rw [List.map_append, secLines_append _ _ _ _ _ _ h0.depth, lines_asRest bs h1, List.map_cons,
        paragraphs_flat _ (blockLines_ne _ _ _)]
      · simp [Block.lines, List.flatMap_map]
      · intro p hp
        obtain ⟨x, -, rfl⟩ := List.mem_map.1 hp
        exact blockLines_ne _ _ _
    · intro l hl
      rcases List.mem_append.1 hl with hl | hl
      · exact h0.rest l hl
      · obtain ⟨x, hx, hl⟩ := List.mem_flatMap.1 hl
        rcases List.mem_cons.1 hl with rfl | hl
        · exact ⟨rfl, trivial, (h1 x hx).first⟩
        · exact (h1 x hx).rest l hl
    · rw [List.map_append, secDepth_append _ _ _ _ h0.depth, depth_asRest bs h1]

/-! ## Pieces of one line -/

/-- The code of a line. -/
def bitCode : List Bit → Code ι
  | [] => .nil
  | .lit s :: r => .item (.literal s) (bitCode r)
  | .space :: r => .item .space (bitCode r)
  | .quoted s :: r => .quote false (.item (.literal s) .nil) (bitCode r)

theorem bitCode_items (l : List Bit) : (bitCode l : Code ι).items = bitItems l := by
  induction l with
  | nil => rfl
  | cons b l ih =>
    cases b <;> simp [bitCode, Code.items, Body.items, ih, bitItems, Bit.items]

theorem bitCode_plain (l : List Bit) : (bitCode l : Code ι).plain = true := by
  induction l with
  | nil => rfl
  | cons b l ih => cases b <;> simp [bitCode, Code.plain, Body.plain, ih, isPlain]

theorem bitCode_acts (L : Lang ι) (cfg : Config) (l : List Bit) :
    (bitCode l : Code ι).acts L cfg = bitsActs L l := by
  induction l with
  | nil => rfl
  | cons b l ih =>
    cases b <;>
      simp [bitCode, Code.acts, Body.acts, quotedActs, plainActs, ih, bitsActs, Bit.acts, texts]

theorem inline_ind {l : List Act} (h : ∀ a ∈ l, inline a = true) : (l.map actInd).sum = 0 := by
  induction l with
  | nil => rfl
  | cons a l ih =>
    have ha := h a (by simp)
    rw [List.map_cons, List.sum_cons, ih (fun x hx => h x (by simp [hx]))]
    cases a <;> simp_all [actInd, inline]

theorem LineActs.whole {l : List Act} (h : LineActs l) : Whole l :=
  ⟨h.first, h.last, fun p hp => by
    rw [inline_ind (fun a ha => h.inline a (hp.subset ha))]; exact Int.le_refl 0, inline_ind h.inline⟩

theorem own_line (cfg : Config) {l : List Act} (h : LineActs l) : ownLines cfg l = [inlineText l] := by
  have := (vecActs_line cfg l h .initial (by simp) 0 .new).2
  rw [ownLines]
  refine this.trans ?_
  rw [Int.toNat_zero, marginText_zero]
  rfl

theorem norm_bits (l : List Bit) (h : spaced true l = true) :
    (fromIter (bitItems l : List (Item ι))).items = bitItems l := by
  rw [fromIter, extend_spaced l true h _ (by simp), items_raw_new]

end Genco
