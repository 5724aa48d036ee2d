import Verif.Spec.Nix
import Verif.Proofs.NixOrd
import Verif.Proofs.Pieces

/-!
# Layout of Nix files
-/

set_option autoImplicit false

namespace Genco

open Spec Tokens

variable {ι : Type}

/-! ## Two kinds of blocks -/

/-- Pieces one below the other. -/
def stack (c : Code ι) (cs : List (Code ι)) : Block ι :=
  ⟨c, cs.map (fun d => ([.push], .push, d))⟩

/-- Pieces moved in, between an opening and a closing piece. -/
def nest (o c : Code ι) (cs : List (Code ι)) (e : Code ι) : Block ι :=
  ⟨o, ([.push, .indentation 1], .ind 1, c) :: (cs.map (fun d => ([.push], .push, d)) ++
    [([.push, .indentation (-1)], .ind (-1), e)])⟩

theorem push_flip (c : Code ι) (cs : List (Code ι)) :
    c.items ++ (cs.flatMap (fun d => Item.push :: d.items) ++ [.push]) =
      (c :: cs).flatMap (fun d => d.items ++ [Item.push]) := by
  induction cs generalizing c with
  | nil => simp
  | cons d cs ih =>
    rw [show (c :: d :: cs).flatMap (fun d => d.items ++ [Item.push]) =
      (c.items ++ [Item.push]) ++ (d :: cs).flatMap (fun d => d.items ++ [Item.push]) from rfl, ← ih d]
    simp

theorem raw_push (cs : List (Code ι)) :
    rawItems ((cs.map (fun d => (([.push] : List (Item ι)), Sep.push, d))).map (fun l => (l.1, l.2.2))) =
      cs.flatMap (fun d => Item.push :: d.items) := by
  simp [rawItems, List.flatMap_map]

theorem stack_items (c : Code ι) (cs : List (Code ι)) :
    (stack c cs).items = (c :: cs).flatMap (fun d => d.items ++ [Item.push]) ++ [.line] := by
  rw [← push_flip, Block.items, stack, raw_push]
  simp

theorem nest_items (o c : Code ι) (cs : List (Code ι)) (e : Code ι) :
    (nest o c cs e).items = o.items ++ [.push, .indentation 1] ++
      (c :: cs).flatMap (fun d => d.items ++ [Item.push]) ++ [.indentation (-1)] ++ e.items ++ [.push, .line] := by
  rw [← push_flip, Block.items, nest]
  have := raw_push cs
  simp only [rawItems, List.map_cons, List.map_append, List.flatMap_cons, List.flatMap_append] at this ⊢
  rw [this]
  simp

theorem depth_push (k : Nat) (cs : List (Code ι)) :
    secDepth k (cs.map (fun d => (Sep.push, d))) = some k := by
  induction cs with
  | nil => rfl
  | cons c cs ih =>
    simp only [List.map_cons, secDepth, Sep.shift]
    have e : ((k : Int) + 0) = k := by omega
    simp only [e, Int.toNat_natCast, ih]
    simp

theorem lines_push (L : Lang ι) (cfg : Config) (k : Nat) (cs : List (Code ι)) :
    secLines L cfg k (cs.map (fun d => (Sep.push, d))) =
      (cs.flatMap (fun d => ownLines cfg (d.acts L cfg))).map (movedIn cfg k) := by
  induction cs with
  | nil => rfl
  | cons c cs ih =>
    simp only [List.map_cons, secLines, Sep.shift]
    have e : ((k : Int) + 0) = k := by omega
    simp only [e, Int.toNat_natCast, ih]
    simp

theorem stack_ok {L : Lang ι} {cfg : Config} {c : Code ι} {cs : List (Code ι)}
    (h : ∀ d ∈ c :: cs, PieceOk L cfg d) : BlockOk L cfg (stack c cs) := by
  refine ⟨h c (by simp), ?_, ?_⟩
  · intro l hl
    obtain ⟨d, hd, rfl⟩ := List.mem_map.1 hl
    exact ⟨rfl, trivial, h d (by simp [hd])⟩
  · rw [stack, List.map_map]
    exact depth_push 0 cs

theorem stack_lines (L : Lang ι) (cfg : Config) (c : Code ι) (cs : List (Code ι)) :
    (stack c cs).lines L cfg = (c :: cs).flatMap (fun d => ownLines cfg (d.acts L cfg)) := by
  rw [stack, Block.lines, List.map_map]
  refine (congrArg (ownLines cfg (c.acts L cfg) ++ ·) (lines_push L cfg 0 cs)).trans ?_
  rw [movedIn_zero]
  simp

theorem nest_rest (o c : Code ι) (cs : List (Code ι)) (e : Code ι) :
    (nest o c cs e).rest.map (fun l => l.2) =
      [(Sep.ind 1, c)] ++ (cs.map (fun d => (Sep.push, d)) ++ [(.ind (-1), e)]) := by
  simp [nest]

theorem nest_ok {L : Lang ι} {cfg : Config} {o c e : Code ι} {cs : List (Code ι)}
    (ho : PieceOk L cfg o) (he : PieceOk L cfg e)
    (h : ∀ d ∈ c :: cs, PieceOk L cfg d) : BlockOk L cfg (nest o c cs e) := by
  refine ⟨ho, ?_, ?_⟩
  · intro l hl
    simp only [nest, List.mem_cons, List.mem_append, List.mem_map, List.not_mem_nil,
      or_false] at hl
    rcases hl with rfl | ⟨d, hd, rfl⟩ | rfl
    · exact ⟨rfl, by simp [Sep.ok], h c (by simp)⟩
    · exact ⟨rfl, trivial, h d (by simp [hd])⟩
    · exact ⟨rfl, by simp [Sep.ok], he⟩
  · rw [nest_rest, secDepth_append _ _ 0 1 rfl, secDepth_append _ _ 1 1 (depth_push 1 cs)]
    rfl

theorem nest_lines (L : Lang ι) (cfg : Config) (o c : Code ι) (cs : List (Code ι)) (e : Code ι) :
    (nest o c cs e).lines L cfg = ownLines cfg (o.acts L cfg) ++
      (((c :: cs).flatMap (fun d => ownLines cfg (d.acts L cfg))).map (movedIn cfg 1) ++
        ownLines cfg (e.acts L cfg)) := by
  rw [Block.lines, nest_rest, secLines_append _ _ _ _ 0 1 rfl, secLines_append _ _ _ _ 1 1 (depth_push 1 cs),
    lines_push]
  have e1 : secLines L cfg 0 [(Sep.ind 1, c)] = (ownLines cfg (c.acts L cfg)).map (movedIn cfg 1) := by
    simp [secLines, Sep.shift]
  have e2 : secLines L cfg 1 [(Sep.ind (-1), e)] = ownLines cfg (e.acts L cfg) := by
    simp [secLines, Sep.shift, movedIn_zero]
  rw [e1, e2]
  simp [nest]

/-! ## Pieces -/

theorem LineActs.seen {l : List Act} (h : LineActs l) : LineActs (seen l) := by
  obtain ⟨h1, ⟨s, r, rfl, hs⟩, ⟨q, t, e, ht⟩⟩ := h
  refine ⟨fun a ha => h1 a (List.mem_of_mem_filter ha), ⟨s, Spec.seen r, ?_, hs⟩, ⟨Spec.seen q, t, ?_, ht⟩⟩
  · rw [seen_cons, if_neg (by simpa using hs)]
  · rw [e, seen_append]
    simp [Spec.seen, ht]

theorem inlineText_seen (l : List Act) : inlineText (seen l) = inlineText l := by
  induction l with
  | nil => rfl
  | cons a l ih =>
    rw [seen_cons]
    split
    · rename_i h; subst h; rw [ih]; rfl
    · cases a <;> simp [inlineText, ih]

theorem piece_bits {L : Lang ι} (cfg : Config) {l : List Bit} (hs : spaced true l = true)
    (h : LineActs (seen (bitsActs L l))) (h1 : ∃ s r, l = .lit s :: r) (h2 : ∃ r s, l = r ++ [.lit s]) :
    PieceOk L cfg (bitCode l) ∧ ownLines cfg ((bitCode l : Code ι).acts L cfg) = [bitsText L l] := by
  refine ⟨⟨bitCode_plain l, ?_, ?_, ?_, ?_⟩, ?_⟩
  · rw [bitCode_acts]; exact h.whole
  · obtain ⟨s, r, rfl⟩ := h1
    exact ⟨.literal s, _, by rw [bitCode_items]; rfl, rfl⟩
  · obtain ⟨r, s, rfl⟩ := h2
    exact ⟨bitItems r, .literal s, by rw [bitCode_items]; simp [bitItems, Bit.items], rfl⟩
  · rw [bitCode_items, norm_bits l hs]
  · rw [bitCode_acts, ← ownLines_seen, own_line cfg h, inlineText_seen, inlineText_bits]

theorem piece_line {L : Lang ι} (hL : Delim L) (cfg : Config) {l : List Bit} (hs : spaced true l = true)
    (h1 : ∃ s r, l = .lit s :: r ∧ s.text ≠ []) (h2 : ∃ r s, l = r ++ [.lit s] ∧ s.text ≠ []) :
    PieceOk L cfg (bitCode l) ∧ ownLines cfg ((bitCode l : Code ι).acts L cfg) = [bitsText L l] := by
  obtain ⟨s, r, e1, hs1⟩ := h1
  obtain ⟨q, t, e2, ht⟩ := h2
  refine piece_bits cfg hs (bitsActs_line L hL l ⟨_, _, e1, by simpa [Bit.shows] using hs1⟩
    ⟨_, _, e2, by simpa [Bit.shows] using ht⟩).seen ⟨s, r, e1⟩ ⟨q, t, e2⟩

theorem inside_append (A B : List Act) (k : Int) (hA : ∀ p, p <+: A → 0 ≤ k + (p.map actInd).sum)
    (hB : ∀ p, p <+: B → 0 ≤ k + (A.map actInd).sum + (p.map actInd).sum) :
    ∀ p, p <+: A ++ B → 0 ≤ k + (p.map actInd).sum := by
  induction A generalizing k with
  | nil =>
    intro p hp
    have := hB p hp
    simpa using this
  | cons a A ih =>
    intro p hp
    cases p with
    | nil => have := hA [] (List.nil_prefix); simpa using this
    | cons b p =>
      rw [List.cons_append, List.cons_prefix_cons] at hp
      obtain ⟨rfl, hp⟩ := hp
      have := ih (k + actInd b) (fun q hq => by
          have := hA (b :: q) (by simpa using hq)
          simp only [List.map_cons, List.sum_cons] at this; omega)
        (fun q hq => by
          have := hB q hq
          simp only [List.map_cons, List.sum_cons] at this; omega) p hp
      simp only [List.map_cons, List.sum_cons]
      omega

/-- Code between texts on its first and last line. -/
theorem whole_around {P V : List Act} (s : Str) (hs : s ≠ []) (hP : ∀ a ∈ P, inline a = true)
    (h1 : ∃ s r, P = .text s :: r ∧ s ≠ []) (hV : Whole V) : Whole (P ++ V ++ [.text s]) := by
  have pz : ∀ p, p <+: P → (p.map actInd).sum = 0 := fun p hp => inline_ind (fun a ha => hP a (hp.subset ha))
  refine ⟨?_, ⟨P ++ V, s, rfl, hs⟩, ?_, ?_⟩
  · obtain ⟨x, r, rfl, hx⟩ := h1
    exact ⟨x, r ++ V ++ [.text s], by simp, hx⟩
  · intro p hp
    have h := inside_append (P ++ V) [.text s] 0 ?_ ?_ p hp
    · simpa using h
    · refine inside_append P V 0 ?_ ?_
      · intro p hp; rw [pz p hp]; simp
      · intro p hp; rw [pz P (List.prefix_refl _)]; simpa using hV.inside p hp
    · intro p hp
      rw [List.map_append, List.sum_append, pz P (List.prefix_refl _), hV.level]
      rw [inline_ind (l := p) (fun a ha => by have := hp.subset ha; simp at this; subst this; rfl)]
      simp
  · simp [pz P (List.prefix_refl _), hV.level, actInd]

/-- A name, an equals sign, code and a semicolon. -/
theorem piece_value {L : Lang ι} (cfg : Config) (n : ItemStr) (hn : n.text ≠ []) (c : Code ι)
    (hc : PieceOk L cfg c) :
    let d := (bitCode [.lit n, .space, word "=", .space]).append (c.append (bitCode [word ";"]))
    PieceOk L cfg d ∧ ownLines cfg (d.acts L cfg) =
      attach (n.text ++ " = ".toList) [';'] (ownLines cfg (c.acts L cfg)) := by
  intro d
  have hi : d.items = bitItems [.lit n, .space, word "=", .space] ++ (c.items ++ bitItems [word ";"]) := by
    simp only [d, append_items, bitCode_items]
  have ha : seen (d.acts L cfg) = [.text n.text, .space, .text ['='], .space] ++ seen (c.acts L cfg) ++
      [.text [';']] := by
    simp only [d, append_acts, bitCode_acts, seen_append]
    have e1 : seen (bitsActs L [.lit n, .space, word "=", .space]) =
        [.text n.text, .space, .text ['='], .space] := by
      have : ∀ x : Str, x ≠ [] → seen [.text x, .space, .text ['='], .space] =
          [.text x, .space, .text ['='], .space] := by intro x hx; simp [seen, hx]
      exact this _ hn
    have e2 : seen (bitsActs L [word ";"]) = [.text [';']] := by
      simp [bitsActs, Bit.acts, word, seen, ItemStr.text]
    rw [e1, e2, List.append_assoc]
  refine ⟨⟨?_, ?_, ?_, ?_, ?_⟩, ?_⟩
  · simp only [d, append_plain, bitCode_plain, hc.plain]; rfl
  · rw [ha]
    refine whole_around _ (by simp) ?_ ⟨_, _, rfl, hn⟩ hc.whole
    intro a ha
    simp only [List.mem_cons, List.not_mem_nil, or_false] at ha
    rcases ha with rfl | rfl | rfl | rfl <;> rfl
  · exact ⟨.literal n, _, by rw [hi]; rfl, rfl⟩
  · exact ⟨bitItems [.lit n, .space, word "=", .space] ++ c.items, .literal (.static ";".toList),
      by rw [hi, List.append_assoc]; rfl, rfl⟩
  · rw [hi]
    have := norm_piece hc (bitItems [.lit n, .space, word "=", .space]) (bitItems [word ";"])
    unfold norm at this
    rw [this, norm_bits _ rfl, norm_bits _ rfl]
    simp
  · rw [← ownLines_seen, ha, own_around cfg _ _ (n.text ++ " = ".toList) [';'] (by simp) ?_ hc.whole,
      ownLines_seen]
    intro x hx
    constructor
    · have h := (vecActs_line cfg ([.text n.text, .space, .text ['='], .space] ++ [.text x])
        ⟨?_, ⟨_, _, rfl, hn⟩, ⟨_, _, rfl, hx⟩⟩ .initial (by simp) 0 .new).2
      · have e : ∀ v : VecState, v.intoVec = [n.text ++ " = ".toList ++ x] →
            v = ⟨n.text ++ " = ".toList ++ x, []⟩ := by
          rintro ⟨b, t⟩ h
          cases t with
          | nil => simp only [VecState.intoVec, List.nil_append, List.cons.injEq, and_true] at h; rw [h]
          | cons y t => have := congrArg List.length h; simp [VecState.intoVec] at this
        refine e _ (h.trans ?_)
        rw [Int.toNat_zero, marginText_zero]
        simp [nextLines, inlineText, VecState.new]
      · intro a ha
        simp only [List.cons_append, List.nil_append, List.mem_cons, List.not_mem_nil, or_false] at ha
        rcases ha with rfl | rfl | rfl | rfl | rfl <;> rfl
    · simp [actsSt, actSt, hn, hx, LSt.flushed, LSt.new]

/-- The imports of a stream are the ones found by walking it. -/
theorem walk_items (ds : List (Call ι)) (i : ι) :
    i ∈ (history ds).walkImports ↔ i ∈ (history ds).items.filterMap langOf := by
  rw [history_eq]
  have hl := linked_fromIter (ds.flatMap callItems)
  have := walkFrom_eq _ hl.1 [] ((fromIter (ds.flatMap callItems)).rev.reverse.length + 1) (by simp)
  rw [List.append_nil] at this
  unfold walkImports
  rw [hl.2]
  unfold items
  rw [this]
  simp

namespace Nix

open NixFile

theorem delim : Delim Nix.lang := delim_base _ _

theorem piece_expr {cfg : Config} {v : Tokens Import} (h : Expr cfg v) :
    ∃ c : Code Import, c.items = v.items ∧ PieceOk Nix.lang cfg c ∧
      toVec Nix.lang cfg v.items = some (ownLines cfg (c.acts Nix.lang cfg)) := by
  obtain ⟨⟨ds, hd⟩, ⟨c, e, hp, hw⟩, h3, h4⟩ := h
  refine ⟨c, e, ⟨hp, hw, by rw [e]; exact h3, by rw [e]; exact h4, ?_⟩, ?_⟩
  · rw [e, hd, history_eq, fromIter_idem]
  · rw [← e, toVec_eq, resolveItems_code _ _ _ hp]
    rfl

/-! ## The header -/

theorem bits_arg (cfg : Config) (a : Str) :
    PieceOk Nix.lang cfg (bitCode [.lit (.box a), word ","]) ∧
      ownLines cfg ((bitCode [.lit (.box a), word ","] : Code Import).acts Nix.lang cfg) = [a ++ [',']] := by
  have h := piece_bits (L := Nix.lang) cfg (l := [.lit (.box a), word ","]) rfl ?_
    ⟨.box a, [word ","], rfl⟩ ⟨[.lit (.box a)], .static ",".toList, rfl⟩
  · exact ⟨h.1, h.2.trans (by simp [bitsText, Bit.text, word, ItemStr.text])⟩
  · have e : bitsActs Nix.lang [.lit (.box a), word ","] = [.text a, .text [',']] := by
      simp [bitsActs, Bit.acts, word, ItemStr.text]
    rw [e]
    by_cases ha : a = []
    · subst ha
      have : seen [.text [], .text [',']] = [.text [',']] := by decide
      rw [this]
      exact ⟨by simp [inline], ⟨[','], [], rfl, by simp⟩, ⟨[], [','], rfl, by simp⟩⟩
    · refine LineActs.seen ⟨by simp [inline], ⟨a, _, rfl, ha⟩, ⟨[.text a], [','], rfl, by simp⟩⟩

theorem bits_word (cfg : Config) (s : ItemStr) (hs : s.text ≠ []) :
    PieceOk Nix.lang cfg (bitCode [.lit s]) ∧
      ownLines cfg ((bitCode [.lit s] : Code Import).acts Nix.lang cfg) = [s.text] := by
  have h := piece_line delim cfg (l := [.lit s]) rfl ⟨s, [], rfl, hs⟩ ⟨[], s, rfl, hs⟩
  exact ⟨h.1, h.2.trans (by simp [bitsText, Bit.text])⟩

theorem bits_with (cfg : Config) (s : ItemStr) :
    PieceOk Nix.lang cfg (bitCode [word "with", .space, .lit s, word ";"]) ∧
      ownLines cfg ((bitCode [word "with", .space, .lit s, word ";"] : Code Import).acts Nix.lang cfg) =
        ["with ".toList ++ s.text ++ [';']] := by
  have h := piece_line delim cfg (l := [word "with", .space, .lit s, word ";"]) rfl
    ⟨_, _, rfl, by decide⟩ ⟨[word "with", .space, .lit s], _, rfl, by decide⟩
  exact ⟨h.1, h.2.trans (by simp [bitsText, Bit.text, word, ItemStr.text])⟩

theorem bits_inherit (cfg : Config) (p n : ItemStr) :
    PieceOk Nix.lang cfg
        (bitCode [word "inherit", .space, word "(", .lit p, word ")", .space, .lit n, word ";"]) ∧
      ownLines cfg ((bitCode [word "inherit", .space, word "(", .lit p, word ")", .space, .lit n, word ";"] :
        Code Import).acts Nix.lang cfg) = (Binding.inherit p.text n.text).lines := by
  have h := piece_line delim cfg
    (l := [word "inherit", .space, word "(", .lit p, word ")", .space, .lit n, word ";"]) rfl
    ⟨_, _, rfl, by decide⟩
    ⟨[word "inherit", .space, word "(", .lit p, word ")", .space, .lit n], _, rfl, by decide⟩
  exact ⟨h.1, h.2.trans (by simp [bitsText, Bit.text, word, ItemStr.text, Binding.lines])⟩

theorem flatMap_single {α β : Type} (l : List α) (f : α → List β) (g : α → β) (h : ∀ a ∈ l, f a = [g a]) :
    l.flatMap f = l.map g := by
  induction l with
  | nil => rfl
  | cons a l ih =>
    rw [List.flatMap_cons, h a (by simp), ih (fun x hx => h x (by simp [hx]))]
    rfl

/-- The block of the arguments. -/
theorem argument_block (cfg : Config) (as : List Str) :
    ∃ b : Block Import, b.items = [Item.literal (.box "{".toList), .push, .indentation 1] ++
        as.flatMap (fun a => bitItems [.lit (.box a), word ","] ++ [Item.push]) ++
        [Item.literal (.box "...".toList), .push, .indentation (-1), .literal (.box "}:".toList), .push, .line] ∧
      BlockOk Nix.lang cfg b ∧ b.lines Nix.lang cfg = argLines cfg (some as) := by
  have h1 := bits_word cfg (.box "{".toList) (by decide)
  have h2 := bits_word cfg (.box "...".toList) (by decide)
  have h3 := bits_word cfg (.box "}:".toList) (by decide)
  obtain ⟨c, cs, e⟩ : ∃ c cs, as.map (fun a => (bitCode [.lit (.box a), word ","] : Code Import)) ++
      [bitCode [.lit (.box "...".toList)]] = c :: cs := by
    cases as <;> simp
  have hm : ∀ d ∈ c :: cs, PieceOk Nix.lang cfg d := by
    rw [← e]
    intro d hd
    rcases List.mem_append.1 hd with hd | hd
    · obtain ⟨a, -, rfl⟩ := List.mem_map.1 hd
      exact (bits_arg cfg a).1
    · rw [List.mem_singleton.1 hd]; exact h2.1
  refine ⟨nest (bitCode [.lit (.box "{".toList)]) c cs (bitCode [.lit (.box "}:".toList)]), ?_,
    nest_ok h1.1 h3.1 hm, ?_⟩
  · rw [nest_items, ← e, List.flatMap_append, List.flatMap_map]
    simp only [bitCode_items]
    simp [bitItems, Bit.items]
    rfl
  · rw [nest_lines, ← e, h1.2, h3.2, List.flatMap_append, List.flatMap_map]
    have : as.flatMap (fun a => ownLines cfg ((bitCode [.lit (.box a), word ","] : Code Import).acts
        Nix.lang cfg)) = as.map (· ++ [',']) := flatMap_single _ _ _ (fun a _ => (bits_arg cfg a).2)
    rw [this]
    simp only [List.flatMap_cons, List.flatMap_nil, h2.2, argLines]
    simp [ItemStr.text]

/-- The lines of the scopes. -/
def withLines (ws : List ItemStr) : List Str := (ws.map ItemStr.text).map (fun w => "with ".toList ++ w ++ [';'])

/-- The block of the scopes. -/
theorem with_block (cfg : Config) (ws : List ItemStr) (hw : ws ≠ []) :
    ∃ b : Block Import, b.items =
        ws.flatMap (fun w => bitItems [word "with", .space, .lit w, word ";"] ++ [Item.push]) ++ [Item.line] ∧
      BlockOk Nix.lang cfg b ∧ b.lines Nix.lang cfg = withLines ws := by
  obtain ⟨c, cs, e⟩ : ∃ c cs, ws.map (fun w =>
      (bitCode [word "with", .space, .lit w, word ";"] : Code Import)) = c :: cs := by
    cases ws with
    | nil => exact absurd rfl hw
    | cons w ws => exact ⟨_, _, rfl⟩
  refine ⟨stack c cs, ?_, stack_ok ?_, ?_⟩
  · rw [stack_items, ← e, List.flatMap_map]
    simp only [bitCode_items]
  · rw [← e]
    intro d hd
    obtain ⟨w, -, rfl⟩ := List.mem_map.1 hd
    exact (bits_with cfg w).1
  · rw [stack_lines, ← e, List.flatMap_map, withLines, List.map_map]
    exact flatMap_single _ _ _ (fun w _ => (bits_with cfg w).2)

/-- The bindings of the two sets. -/
def bindings (cfg : Config) (ins : List (ItemStr × ItemStr)) (vs : List (ItemStr × Tokens Import)) :
    List Binding :=
  ins.map (fun e => .inherit e.1.text e.2.text) ++
    vs.map (fun e => .value e.1.text ((toVec Nix.lang cfg e.2.items).getD []))

/-- Pieces for the values of variables. -/
theorem value_pieces (cfg : Config) (vs : List (ItemStr × Tokens Import))
    (hv : ∀ e ∈ vs, e.1.text ≠ [] ∧ Expr cfg e.2) :
    ∃ ds : List (Code Import), (∀ d ∈ ds, PieceOk Nix.lang cfg d) ∧
      ds.flatMap (fun d => d.items ++ [Item.push]) = vs.flatMap (fun e =>
        bitItems [.lit e.1, .space, word "=", .space] ++ e.2.items ++ bitItems [word ";"] ++ [Item.push]) ∧
      ds.flatMap (fun d => ownLines cfg (d.acts Nix.lang cfg)) = (vs.map (fun e =>
        Binding.value e.1.text ((toVec Nix.lang cfg e.2.items).getD []))).flatMap Binding.lines ∧
      ds.length = vs.length := by
  induction vs with
  | nil => exact ⟨[], by simp, rfl, rfl, rfl⟩
  | cons e vs ih =>
    obtain ⟨ds, h1, h2, h3, h4⟩ := ih (fun x hx => hv x (by simp [hx]))
    obtain ⟨hn, hx⟩ := hv e (by simp)
    obtain ⟨c, hc, hp, ht⟩ := piece_expr hx
    obtain ⟨p1, p2⟩ := piece_value cfg e.1 hn c hp
    refine ⟨(bitCode [.lit e.1, .space, word "=", .space]).append (c.append (bitCode [word ";"])) :: ds,
      ?_, ?_, ?_, by rw [List.length_cons, List.length_cons, h4]⟩
    rotate_left
    · rw [List.flatMap_cons, h2, append_items, append_items, hc, bitCode_items, bitCode_items]
      simp
    · rw [List.flatMap_cons, h3, p2, List.map_cons, List.flatMap_cons, ht]
      rfl
    · intro d hd
      rcases List.mem_cons.1 hd with rfl | hd
      · exact p1
      · exact h1 d hd

/-- The block of the bindings. -/
theorem let_block (cfg : Config) (ins : List (ItemStr × ItemStr)) (vs : List (ItemStr × Tokens Import))
    (hv : ∀ e ∈ vs, e.1.text ≠ [] ∧ Expr cfg e.2) (hne : ¬ (ins = [] ∧ vs = [])) :
    ∃ b : Block Import, b.items =
      [Item.literal (.box "let".toList), .push, .indentation 1] ++
      ins.flatMap (fun e =>
        bitItems [word "inherit", .space, word "(", .lit e.1, word ")", .space, .lit e.2, word ";"] ++ [Item.push]) ++
      vs.flatMap (fun e =>
        bitItems [.lit e.1, .space, word "=", .space] ++ e.2.items ++ bitItems [word ";"] ++ [Item.push]) ++
      [Item.indentation (-1), .literal (.box "in".toList), .push, .line] ∧
      BlockOk Nix.lang cfg b ∧ b.lines Nix.lang cfg = letLines cfg (bindings cfg ins vs) := by
  obtain ⟨ds, d1, d2, d3, d4⟩ := value_pieces cfg vs hv
  have h1 := bits_word cfg (.box "let".toList) (by decide)
  have h3 := bits_word cfg (.box "in".toList) (by decide)
  obtain ⟨c, cs, e⟩ : ∃ c cs, ins.map (fun e => (bitCode
      [word "inherit", .space, word "(", .lit e.1, word ")", .space, .lit e.2, word ";"] : Code Import)) ++ ds =
      c :: cs := by
    cases ins with
    | cons i ins => exact ⟨_, _, rfl⟩
    | nil =>
      cases ds with
      | cons d ds => exact ⟨_, _, rfl⟩
      | nil => exact absurd ⟨rfl, List.length_eq_zero_iff.1 d4.symm⟩ hne
  have hm : ∀ d ∈ c :: cs, PieceOk Nix.lang cfg d := by
    rw [← e]
    intro d hd
    rcases List.mem_append.1 hd with hd | hd
    · obtain ⟨a, -, rfl⟩ := List.mem_map.1 hd
      exact (bits_inherit cfg _ _).1
    · exact d1 d hd
  refine ⟨nest (bitCode [.lit (.box "let".toList)]) c cs (bitCode [.lit (.box "in".toList)]), ?_,
    nest_ok h1.1 h3.1 hm, ?_⟩
  · rw [nest_items, ← e, List.flatMap_append, List.flatMap_map, d2]
    simp only [bitCode_items]
    simp only [List.append_assoc]
    rfl
  · rw [nest_lines, ← e, h1.2, h3.2, List.flatMap_append, List.flatMap_map, d3]
    have hi : (ins.flatMap fun e => ownLines cfg ((bitCode [word "inherit", .space, word "(", .lit e.1,
        word ")", .space, .lit e.2, word ";"] : Code Import).acts Nix.lang cfg)) =
        (ins.map (fun e => Binding.inherit e.1.text e.2.text)).flatMap Binding.lines := by
      rw [List.flatMap_map]
      refine List.flatMap_congr (fun e _ => (bits_inherit cfg _ _).2)
    have hb : bindings cfg ins vs ≠ [] := by
      rw [bindings, Ne, List.append_eq_nil_iff, List.map_eq_nil_iff, List.map_eq_nil_iff]
      exact hne
    rw [hi, ← List.flatMap_append, letLines, if_neg hb, List.append_assoc]
    rfl

theorem paragraphs_opt3 (p q r : List Str) :
    paragraphs ((if p = [] then [] else [p]) ++ (if q = [] then [] else [q]) ++ (if r = [] then [] else [r])) =
      paragraphs [p, q, r] := by
  by_cases h : p = [] <;> by_cases h' : q = [] <;> by_cases h'' : r = [] <;> simp [h, h', h'', paragraphs]

/-- Above the body stand the declarations. -/
theorem file_eq (cfg : Config) (isScoped : Bool) (t : Tokens Import)
    (hb : losesSpace Nix.lang.langItem t.items = false)
    (hv : Exprs cfg t.walkImports) :
    toFileVec Nix.lang cfg (Nix.file isScoped t) =
      (toVec Nix.lang cfg t.items).map (fileLines (Decls.lines cfg
        ⟨if isScoped then none else some (setOf (t.walkImports.flatMap argumentsOf)),
          (setOf (t.walkImports.flatMap withsOf)).map ItemStr.text,
          bindings cfg (setOf (t.walkImports.flatMap inheritsOf)) (setOf (t.walkImports.flatMap variablesOf))⟩)) := by
  obtain ⟨b1, i1, o1, l1⟩ : ∃ bs : List (Block Import),
      bs.flatMap Block.items = (if isScoped then [] else argumentCalls t.walkImports) ∧
      (∀ b ∈ bs, BlockOk Nix.lang cfg b) ∧
      bs.map (Block.lines Nix.lang cfg) =
        (fun p => if p = [] then [] else [p]) (argLines cfg
          (if isScoped then none else some (setOf (t.walkImports.flatMap argumentsOf)))) := by
    cases isScoped with
    | true => exact ⟨[], rfl, by simp, rfl⟩
    | false =>
      obtain ⟨b, h1, h2, h3⟩ := argument_block cfg (setOf (t.walkImports.flatMap argumentsOf))
      refine ⟨[b], ?_, by simpa using h2, ?_⟩
      · rw [List.flatMap_cons, List.flatMap_nil, List.append_nil, h1]; rfl
      · simp only [List.map_cons, List.map_nil, h3, Bool.false_eq_true, if_false]
        rw [if_neg (by simp [argLines])]
  obtain ⟨b2, i2, o2, l2⟩ : ∃ bs : List (Block Import),
      bs.flatMap Block.items = withCalls t.walkImports ∧
      (∀ b ∈ bs, BlockOk Nix.lang cfg b) ∧
      bs.map (Block.lines Nix.lang cfg) =
        (fun p => if p = [] then [] else [p]) (withLines (setOf (t.walkImports.flatMap withsOf))) := by
    by_cases hw : setOf (t.walkImports.flatMap withsOf) = []
    · refine ⟨[], ?_, by simp, ?_⟩
      · rw [withCalls, hw]; rfl
      · rw [hw]; rfl
    · obtain ⟨b, h1, h2, h3⟩ := with_block cfg _ hw
      refine ⟨[b], ?_, by simpa using h2, ?_⟩
      · rw [List.flatMap_cons, List.flatMap_nil, List.append_nil, h1, withCalls]
        simp only [List.isEmpty_iff]
        rw [if_neg hw]
      · simp only [List.map_cons, List.map_nil, h3]
        rw [if_neg (by simpa [withLines] using hw)]
  have hvs : ∀ e ∈ setOf (t.walkImports.flatMap variablesOf), e.1.text ≠ [] ∧ Expr cfg e.2 := by
    intro e he
    rw [mem_setOf, List.mem_flatMap] at he
    obtain ⟨i, hi, he⟩ := he
    cases i with
    | «variable» n v =>
      simp only [variablesOf, List.mem_singleton] at he
      subst he
      exact hv n v hi
    | _ => simp [variablesOf] at he
  obtain ⟨b3, i3, o3, l3⟩ : ∃ bs : List (Block Import),
      bs.flatMap Block.items = letCalls t.walkImports ∧
      (∀ b ∈ bs, BlockOk Nix.lang cfg b) ∧
      bs.map (Block.lines Nix.lang cfg) =
        (fun p => if p = [] then [] else [p]) (letLines cfg (bindings cfg
          (setOf (t.walkImports.flatMap inheritsOf)) (setOf (t.walkImports.flatMap variablesOf)))) := by
    by_cases hw : setOf (t.walkImports.flatMap inheritsOf) = [] ∧ setOf (t.walkImports.flatMap variablesOf) = []
    · refine ⟨[], ?_, by simp, ?_⟩
      · simp only [letCalls, hw]; rfl
      · rw [hw.1, hw.2]; rfl
    · obtain ⟨b, h1, h2, h3⟩ := let_block cfg _ (setOf (t.walkImports.flatMap variablesOf)) hvs hw
      · refine ⟨[b], ?_, by simpa using h2, ?_⟩
        · rw [List.flatMap_cons, List.flatMap_nil, List.append_nil, h1, letCalls]
          simp only [Bool.and_eq_true, List.isEmpty_iff]
          rw [if_neg hw]
        · simp only [List.map_cons, List.map_nil, h3]
          have hb : bindings cfg (setOf (t.walkImports.flatMap inheritsOf))
              (setOf (t.walkImports.flatMap variablesOf)) ≠ [] := by
            rw [bindings, Ne, List.append_eq_nil_iff, List.map_eq_nil_iff, List.map_eq_nil_iff]
            exact hw
          rw [if_neg (by rw [letLines, if_neg hb]; simp)]
  have h := file_blocks Nix.lang delim cfg (b1 ++ b2 ++ b3) (by
    intro b hb
    rcases List.mem_append.1 hb with hb | hb
    · rcases List.mem_append.1 hb with hb | hb
      · exact o1 b hb
      · exact o2 b hb
    · exact o3 b hb) t.items hb
  rw [List.flatMap_append, List.flatMap_append, i1, i2, i3, List.map_append, List.map_append, l1, l2, l3] at h
  refine Eq.trans ?_ (h.trans ?_)
  · rfl
  · refine congrArg (fun x => Option.map (fileLines x) _) ?_
    exact paragraphs_opt3 _ _ _

end Nix

end Genco
