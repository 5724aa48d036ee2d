import Verif.Proofs.Parted
import Verif.Props.Gaps

/-!
# Whitespace calls with silent calls among them (C88)
-/

set_option autoImplicit false

namespace Genco.Props

open Genco Spec Tokens

variable {ι : Type}

theorem plainCalls_silent {c : Call ι} (h : Silent c) : PlainCalls [c] := by
  intro i hi
  cases h <;> simp only [List.flatMap_cons, List.flatMap_nil, List.append_nil, callItems,
    List.mem_singleton] at hi <;> subst hi <;> rfl

theorem plainCalls_parts {ps : List (Call ι × List WsCall)} (h : ∀ p ∈ ps, Silent p.1) :
    PlainCalls (ps.flatMap (fun p => p.1 :: p.2.map WsCall.call)) := by
  induction ps with
  | nil => simp [PlainCalls]
  | cons p ps ih =>
    rw [List.flatMap_cons, ← List.singleton_append]
    exact plainCalls_append.2 ⟨plainCalls_append.2 ⟨plainCalls_silent (h p (by simp)), plainCalls_ws _⟩,
      ih (fun x hx => h x (by simp [hx]))⟩

/-- C88. Calls that write nothing between two texts, such as registering an import,
part the whitespace calls. The line breaks between the texts are the most any part
asks for; every part asks for a space of its own, those in front of the last part with
the most line breaks are lost; and the level is the sum. -/
theorem C88_parted (L : Lang ι) (cfg : Config) (cs : List (Call ι)) (hp : PlainCalls cs)
    (a b : ItemStr) (ha : a.text ≠ []) (hb : b.text ≠ []) (w : List WsCall)
    (ps : List (Call ι × List WsCall)) (hs : ∀ p ∈ ps, Silent p.1) :
    toString L cfg (history (cs ++ [.append (.literal a)] ++
        (w.map WsCall.call ++ ps.flatMap (fun p => p.1 :: p.2.map WsCall.call)) ++
        [.append (.literal b)])).items =
      (toString L cfg (history (cs ++ [.append (.literal a)])).items).map (fun out =>
        out ++ partText cfg (indSum (cs.flatMap callItems)) (w :: ps.map Prod.snd) ++ b.text) := by
  have p1 : PlainCalls (cs ++ [.append (.literal a)]) :=
    plainCalls_append.2 ⟨hp, plainCalls_lit a⟩
  have p2 : PlainCalls (cs ++ [.append (.literal a)] ++
      (w.map WsCall.call ++ ps.flatMap (fun p => p.1 :: p.2.map WsCall.call)) ++ [.append (.literal b)]) :=
    plainCalls_append.2 ⟨plainCalls_append.2 ⟨p1, plainCalls_append.2 ⟨plainCalls_ws w, plainCalls_parts hs⟩⟩,
      plainCalls_lit b⟩
  rw [C13_layout _ _ _ (plain_history p1), C13_layout _ _ _ (plain_history p2), Option.map_some]
  congr 1
  have hrev : (history (cs ++ [.append (.literal a)])).rev = .literal a :: (history cs).rev := by
    rw [history_append]; rfl
  obtain ⟨q, hq, hacts⟩ := fits_all L.langItem ps hs (history (cs ++ [.append (.literal a)])) (by rw [hrev]; rfl) w
  rw [← history_append] at hacts
  have h1 : (history (cs ++ [.append (.literal a)])).items.flatMap (plainActs L.langItem) =
      (history cs).items.flatMap (plainActs L.langItem) ++ [.text a.text] := by
    simp [items, hrev, plainActs]
  rw [h1] at hacts
  have h2 : (history (cs ++ [.append (.literal a)] ++
      (w.map WsCall.call ++ ps.flatMap (fun p => p.1 :: p.2.map WsCall.call)) ++
      [.append (.literal b)])).items.flatMap (plainActs L.langItem) =
      (history cs).items.flatMap (plainActs L.langItem) ++ [.text a.text] ++ q ++ [.text b.text] := by
    rw [← hacts, history_append (_ ++ _) [.append (.literal b)]]
    simp [items, Call.run, Tokens.item, plainActs]
  have hsum := indSum_acts L.langItem (history cs).items
  rw [C07_net_indentation] at hsum
  rw [h1, h2, render_concat cfg _ q hq.inv b.text hb, place_parts cfg _ a.text b.text ha hq, hsum,
    List.append_assoc]

/-- C88. On one line: one space for every run of space calls, however many imports are
registered among them. -/
theorem C88_spaces (L : Lang ι) (cfg : Config) (cs : List (Call ι)) (hp : PlainCalls cs)
    (a b : ItemStr) (ha : a.text ≠ []) (hb : b.text ≠ []) (k : Nat)
    (ps : List (Call ι × Nat)) (hs : ∀ p ∈ ps, Silent p.1) :
    toString L cfg (history (cs ++ [.append (.literal a)] ++
        (List.replicate k .space ++ ps.flatMap (fun p => p.1 :: List.replicate p.2 .space)) ++
        [.append (.literal b)])).items =
      (toString L cfg (history (cs ++ [.append (.literal a)])).items).map (fun out =>
        out ++ List.replicate ((k :: ps.map Prod.snd).countP (· ≠ 0)) ' ' ++ b.text) := by
  have h := C88_parted L cfg cs hp a b ha hb (List.replicate k .space)
    (ps.map fun p => (p.1, List.replicate p.2 .space)) (by
      intro p hp
      obtain ⟨x, hx, rfl⟩ := List.mem_map.1 hp
      exact hs x hx)
  have hc : ∀ n, (List.replicate n WsCall.space).map (WsCall.call (ι := ι)) = List.replicate n .space := by
    intro n; simp [WsCall.call]
  have hf : (ps.map fun p => (p.1, List.replicate p.2 WsCall.space)).flatMap
      (fun p => p.1 :: p.2.map (WsCall.call (ι := ι))) = ps.flatMap (fun p => p.1 :: List.replicate p.2 .space) := by
    rw [List.flatMap_map]
    simp only [hc]
  rw [hc, hf] at h
  have gb : ∀ n, gapBreaks (List.replicate n .space) = 0 := by
    intro n
    unfold gapBreaks net
    have h1 : ∀ c : WsCall, c ≠ .space → c ∉ sinceInd (List.replicate n .space) := by
      intro c hc hm
      have := List.takeWhile_subset _ (List.mem_reverse.1 hm)
      exact hc (List.mem_replicate.1 (List.mem_reverse.1 this)).2
    simp [h1 .line (by decide), h1 .push (by decide), List.count_replicate]
  have gs : ∀ n, gapSpaces (List.replicate n .space) = if n ≠ 0 then 1 else 0 := by
    intro n
    unfold gapSpaces
    cases n with
    | zero => rfl
    | succ n => simp [List.getLast?_replicate]
  have nt : ∀ n, net (List.replicate n .space) = 0 := by
    intro n; simp [net, List.count_replicate]
  have pb : ∀ l : List Nat, partBreaks (l.map (fun n => List.replicate n .space)) = 0 := by
    intro l
    induction l with
    | nil => rfl
    | cons n l ih => rw [List.map_cons, partBreaks_cons, gb, ih]; rfl
  have sm : ∀ l : List Nat, ((l.map (fun n => List.replicate n .space)).map gapSpaces).sum = l.countP (· ≠ 0) := by
    intro l
    induction l with
    | nil => rfl
    | cons n l ih =>
      rw [List.map_cons, List.map_cons, List.sum_cons, ih, gs, List.countP_cons]
      by_cases hn : n = 0 <;> simp [hn, Nat.add_comm]
  have hm : List.replicate k WsCall.space :: (ps.map fun p => (p.1, List.replicate p.2 WsCall.space)).map Prod.snd =
      (k :: ps.map Prod.snd).map (fun n => List.replicate n .space) := by
    simp [List.map_map, Function.comp_def]
  have ht : ∀ l, partText cfg l ((k :: ps.map Prod.snd).map (fun n => List.replicate n .space)) =
      List.replicate ((k :: ps.map Prod.snd).countP (· ≠ 0)) ' ' := by
    intro l
    unfold partText
    rw [pb, ← sm, List.map_cons]
    simp only [partSpaces, pb, Nat.lt_irrefl, false_and, if_false, List.map_cons, List.sum_cons]
    simp
  rw [h, hm]
  simp only [ht]

/-- Two imports registered on the way from one line to the next: each part asks for a
new line, the space before the last of them is lost. -/
example : partText cfg2 1 [[.space], [.push, .space], [.indent], [.space]] = "\n     ".toList := by decide

example : toString plain cfg2 (history [.indent, .append (lit "a"), .space, .register "i".toList, .push, .space,
    .append (lit ""), .indent, .register "j".toList, .space, .append (lit "b")]).items =
    some "  a\n     b".toList := by decide

/-- A blank line is asked for in the middle; the spaces after it all count, although
a new line is asked for later. -/
example : partText cfg2 0 [[.space], [.line, .space], [.push, .space]] = "\n\n  ".toList := by decide

example : toString plain cfg2 (history [.append (lit "a"), .space, .register "i".toList, .line, .space,
    .register "j".toList, .push, .space, .append (lit "b")]).items = some "a\n\n  b".toList := by decide

example : toString plain cfg2 (history [.append (lit "a"), .space, .space, .register "i".toList, .register "j".toList,
    .space, .append (lit "b")]).items = some "a  b".toList := by decide

end Genco.Props
