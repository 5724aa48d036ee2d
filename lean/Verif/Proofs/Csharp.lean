import Verif.Proofs.Erase
import Verif.Proofs.Java
import Verif.Spec.Csharp

/-!
# Imports of C#
-/

set_option autoImplicit false

namespace Genco.Csharp

open Spec Spec.CsharpFile

/-! ## The loop -/

/-- The bits of a line. -/
def lineBits (u : Str) : List Bit := [word "using", .space, .lit (.box u), word ";"]

structure LoopOk (own : Option Str) (es : List (Str × Str)) (s : State) (us : List Str) : Prop where
  keys : KeysIncreasing s.names
  lines : s.lines = us.map lineBits
  get : ∀ n ns, mapGet n s.names = some ns ↔ Chosen own es ns n
  all : ∀ e ∈ es, some e.1 ≠ own → ∃ p, mapGet e.2 s.names = some p
  imported : ∀ u, u ∈ s.imported ↔ u ∈ us
  used : ∀ u, u ∈ us ↔ ∃ n, mapGet n s.names = some u
  sorted : Increasing us

theorem compare_fst {a b : Str × Str} (h : compare a b = .lt) :
    compare a.1 b.1 = .lt ∨ (a.1 = b.1 ∧ compare a.2 b.2 = .lt) := by
  rw [compare_pair] at h
  cases h1 : compare a.1 b.1 with
  | lt => exact .inl rfl
  | eq =>
    rw [h1] at h
    exact .inr ⟨Std.LawfulEqOrd.eq_of_compare h1, h⟩
  | gt => rw [h1] at h; exact absurd h (by simp [Ordering.then])

theorem compare_same {x y n : Str} (h : compare (x, n) (y, n) = .lt) : compare x y = .lt := by
  rcases compare_fst h with h | ⟨-, h⟩
  · exact h
  · rw [cmp_self] at h; exact absurd h (by decide)

theorem lt_asymm' {x y : Str} (h : compare x y = .lt) (h' : compare y x = .lt) : False := by
  have := Std.OrientedCmp.gt_of_lt h
  rw [this] at h'
  exact absurd h' (by decide)

theorem chosen_concat {own : Option Str} {es : List (Str × Str)} {e : Str × Str}
    (hs : Increasing (es ++ [e])) (ns n : Str) :
    Chosen own (es ++ [e]) ns n ↔ Chosen own es ns n ∨
      ((ns, n) = e ∧ some e.1 ≠ own ∧ ∀ ns', (ns', n) ∈ es → some ns' = own) := by
  have hlt : ∀ x ∈ es, compare x e = .lt := by
    intro x hx
    exact (List.pairwise_append.1 hs).2.2 x hx e (by simp)
  constructor
  · rintro ⟨hm, hf, hmin⟩
    rcases List.mem_append.1 hm with hm | hm
    · exact .inl ⟨hm, hf, fun ns' h' => hmin ns' (List.mem_append_left _ h')⟩
    · have he := List.mem_singleton.1 hm
      refine .inr ⟨he, he ▸ hf, fun ns' h' => ?_⟩
      by_contra hf'
      have hl := hlt _ h'
      rw [← he] at hl
      have hl := compare_same hl
      rcases hmin ns' (List.mem_append_left _ h') hf' with rfl | h
      · rw [cmp_self] at hl; exact absurd hl (by decide)
      · exact lt_asymm' h hl
  · rintro (⟨hm, hf, hmin⟩ | ⟨he, hf, hno⟩)
    · refine ⟨List.mem_append_left _ hm, hf, fun ns' h' hf' => ?_⟩
      rcases List.mem_append.1 h' with h' | h'
      · exact hmin ns' h' hf'
      · have he := List.mem_singleton.1 h'
        have hl := hlt _ hm
        rw [← he] at hl
        exact .inr (compare_same hl)
    · refine ⟨by simp [he], by rw [← he] at hf; exact hf, fun ns' h' hf' => ?_⟩
      rcases List.mem_append.1 h' with h' | h'
      · exact absurd (hno ns' h') hf'
      · have h' := List.mem_singleton.1 h'
        rw [← he] at h'
        exact .inl (congrArg Prod.fst h')

theorem addImport_ok (ns : Option ItemStr) (es : List (Str × Str)) (s : State) (us : List Str)
    (e : Str × Str) (hs : Increasing (es ++ [e])) (h : LoopOk (ns.map ItemStr.text) es s us) :
    ∃ us', LoopOk (ns.map ItemStr.text) (es ++ [e]) (addImport ns s e) us' := by
  have hc := chosen_concat (own := ns.map ItemStr.text) hs
  have hlt : ∀ x ∈ es, compare x e = .lt := by
    intro x hx
    exact (List.pairwise_append.1 hs).2.2 x hx e (by simp)
  unfold addImport
  by_cases h1 : some e.1 = ns.map ItemStr.text
  · rw [if_pos h1]
    refine ⟨us, h.keys, h.lines, ?_, ?_, h.imported, h.used, h.sorted⟩
    · intro n p
      rw [h.get, hc]
      constructor
      · exact Or.inl
      · rintro (hx | ⟨-, hf, -⟩)
        · exact hx
        · exact absurd h1 hf
    · intro x hx hf
      rcases List.mem_append.1 hx with hx | hx
      · exact h.all x hx hf
      · rw [List.mem_singleton.1 hx] at hf; exact absurd h1 hf
  · rw [if_neg h1]
    by_cases h2 : (mapGet e.2 s.names).isSome
    · rw [if_pos h2]
      obtain ⟨p, hp⟩ := Option.isSome_iff_exists.1 h2
      refine ⟨us, h.keys, h.lines, ?_, ?_, h.imported, h.used, h.sorted⟩
      · intro n q
        rw [h.get, hc]
        constructor
        · exact Or.inl
        · rintro (hx | ⟨he, -, hno⟩)
          · exact hx
          · have hp' := (h.get _ _).1 hp
            have hn : n = e.2 := congrArg Prod.snd he
            subst hn
            exact absurd (hno p hp'.1) hp'.2.1
      · intro x hx hf
        rcases List.mem_append.1 hx with hx | hx
        · exact h.all x hx hf
        · rw [List.mem_singleton.1 hx]; exact ⟨p, hp⟩
    · rw [if_neg h2]
      have hnone : ∀ p, (p, e.2) ∈ es → some p = ns.map ItemStr.text := by
        intro p hp
        by_contra hf
        obtain ⟨q, hq⟩ := h.all _ hp hf
        rw [hq] at h2
        simp at h2
      have hget : ∀ n p, mapGet n (mapInsert e.2 e.1 s.names) = some p ↔
          Chosen (ns.map ItemStr.text) (es ++ [e]) p n := by
        intro n p
        rw [Java.mapGet_mapInsert h.keys, hc]
        by_cases hn : n = e.2
        · rw [if_pos hn]
          subst hn
          constructor
          · intro hp
            rw [Option.some.injEq] at hp
            exact .inr ⟨by rw [← hp], h1, hnone⟩
          · rintro (hx | ⟨he, -, -⟩)
            · rw [← h.get] at hx; rw [hx] at h2; simp at h2
            · rw [← congrArg Prod.fst he]
        · rw [if_neg hn, h.get]
          constructor
          · exact Or.inl
          · rintro (hx | ⟨he, -, -⟩)
            · exact hx
            · exact absurd (congrArg Prod.snd he) hn
      have hall : ∀ x ∈ es ++ [e], some x.1 ≠ ns.map ItemStr.text →
          ∃ p, mapGet x.2 (mapInsert e.2 e.1 s.names) = some p := by
        intro x hx hf
        rw [Java.mapGet_mapInsert h.keys]
        by_cases hn : x.2 = e.2
        · rw [if_pos hn]; exact ⟨_, rfl⟩
        · rw [if_neg hn]
          rcases List.mem_append.1 hx with hx | hx
          · exact h.all x hx hf
          · rw [List.mem_singleton.1 hx] at hn; exact absurd rfl hn
      have hkey : ∀ u, (∃ n, mapGet n (mapInsert e.2 e.1 s.names) = some u) ↔
          u = e.1 ∨ ∃ n, mapGet n s.names = some u := by
        intro u
        constructor
        · rintro ⟨n, hn⟩
          rw [Java.mapGet_mapInsert h.keys] at hn
          by_cases hne : n = e.2
          · rw [if_pos hne, Option.some.injEq] at hn; exact .inl hn.symm
          · rw [if_neg hne] at hn; exact .inr ⟨n, hn⟩
        · rintro (rfl | ⟨n, hn⟩)
          · exact ⟨e.2, by rw [Java.mapGet_mapInsert h.keys, if_pos rfl]⟩
          · refine ⟨n, ?_⟩
            rw [Java.mapGet_mapInsert h.keys, if_neg, hn]
            rintro rfl
            rw [hn] at h2
            simp at h2
      by_cases h3 : e.1 ∈ s.imported
      · rw [if_pos h3]
        refine ⟨us, keysIncreasing_mapModify _ _ _ _ h.keys, h.lines, hget, hall, h.imported, ?_, h.sorted⟩
        intro u
        rw [hkey u]
        constructor
        · intro hu; exact .inr ((h.used u).1 hu)
        · rintro (rfl | hu)
          · exact (h.imported _).1 h3
          · exact (h.used u).2 hu
      · rw [if_neg h3]
        refine ⟨us ++ [e.1], keysIncreasing_mapModify _ _ _ _ h.keys, ?_, hget, hall, ?_, ?_, ?_⟩
        · simp only [h.lines, List.map_append, List.map_cons, List.map_nil]
          rfl
        · intro u
          simp only [mem_setInsert, h.imported, List.mem_append, List.mem_singleton]
          exact or_comm
        · intro u
          rw [hkey u, List.mem_append, List.mem_singleton, h.used u]
          exact or_comm
        · refine List.pairwise_append.2 ⟨h.sorted, by simp, ?_⟩
          intro u hu v hv
          rw [List.mem_singleton.1 hv]
          obtain ⟨n, hn⟩ := (h.used u).1 hu
          have hm := ((h.get n u).1 hn).1
          rcases compare_fst (hlt _ hm) with hl | ⟨hl, -⟩
          · exact hl
          · exact absurd ((h.imported _).2 (hl ▸ hu)) h3

theorem foldl_ok (ns : Option ItemStr) (es : List (Str × Str)) (hs : Increasing es) :
    ∃ us, LoopOk (ns.map ItemStr.text) es (es.foldl (addImport ns) ⟨[], [], []⟩) us := by
  induction es using list_rec_right with
  | h0 =>
    refine ⟨[], List.Pairwise.nil, rfl, ?_, by simp, by simp, by simp [mapGet], List.Pairwise.nil⟩
    intro n p
    simp [mapGet, Chosen]
  | h1 es e ih =>
    obtain ⟨us, h⟩ := ih (List.pairwise_append.1 hs).1
    rw [List.foldl_append]
    exact addImport_ok ns es _ us e hs h

/-- The pairs, sorted. -/
def keys (l : List Import) : List (Str × Str) := setOf (l.map (fun i => (i.ns.text, i.name.text)))

theorem resolved_ok (ns : Option ItemStr) (l : List Import) :
    ∃ us, LoopOk (ns.map ItemStr.text) (keys l) (resolved ns l) us := foldl_ok ns (keys l) (increasing_setOf _)

theorem mem_keys (l : List Import) (e : Str × Str) : e ∈ keys l ↔ e ∈ l.map target := by
  simp only [keys, mem_setOf]; rfl

theorem chosen_congr {own : Option Str} {a b : List (Str × Str)} (h : ∀ e, e ∈ a ↔ e ∈ b) (ns n : Str) :
    Chosen own a ns n ↔ Chosen own b ns n := by simp only [Chosen, h]

/-! ## The file -/

theorem lineBits_ok (u : Str) : LineOk (lineBits u) :=
  ⟨rfl, ⟨_, _, rfl, rfl⟩, ⟨[word "using", .space, .lit (.box u)], _, rfl, rfl⟩⟩

theorem lineBits_text {ι : Type} (L : Lang ι) (u : Str) : lineText L (lineBits u) = usingLine u := by
  have hl : ∃ r b, lineBits u = r ++ [b] ∧ b.shows = true :=
    ⟨[word "using", .space, .lit (.box u)], word ";", rfl, by decide⟩
  rw [lineText_of_last L hl, usingLine, command_ne _ (by simp)]
  simp [lineBits, bitsText, bitText_lit, bitText_space, bitText_word, ItemStr.text]

theorem importCalls_eq (ns : Option ItemStr) (l : List Import) {us : List Str}
    (h : (resolved ns l).lines = us.map lineBits) :
    importCalls ns l = if l = [] then [] else
      (us.map lineBits).flatMap (fun b => bitItems b ++ [.push]) ++ [.line] := by
  simp only [importCalls, List.isEmpty_iff, h]

theorem header_file (ns : Option ItemStr) (cfg : Config) (t : Tokens Import) {us : List Str}
    (h : (resolved ns t.walkImports).lines = us.map lineBits) (body : List (Item Import))
    (hb : losesSpace (lang ns t).langItem body = false) :
    toFileVec (lang ns t) cfg [(header ns t).items, body] =
      (toVec (lang ns t) cfg body).map (fileLines (us.map usingLine)) := by
  have hd : Delim (lang ns t) := delim_base _ _
  have hls : ∀ b ∈ us.map lineBits, LineOk b := by
    intro b hb
    obtain ⟨e, -, rfl⟩ := List.mem_map.1 hb
    exact lineBits_ok e
  have ht : (us.map lineBits).map (lineText (lang ns t)) = us.map usingLine := by
    rw [List.map_map]
    exact List.map_congr_left (fun e _ => lineBits_text _ e)
  simp only [header, importCalls_eq _ _ h]
  by_cases hw : t.walkImports = []
  · have : us = [] := by
      rw [hw] at h
      exact List.map_eq_nil_iff.1 h.symm
    rw [if_pos hw, this]
    exact file_none _ cfg _
  · rw [if_neg hw, file_after _ hd cfg _ hls _ hb, ht]

/-- The calls for the body in a namespace. -/
def blockCalls (n : ItemStr) (t : Tokens Import) : List (Item Import) :=
  bitItems [word "namespace", .space, .lit n, .space, word "{"] ++ ([Item.indentation 1] ++
    (t.items ++ (Item.indentation (-1) :: bitItems [word "}"])))

/-- The stream of the body in a namespace. -/
def block (n : ItemStr) (t : Tokens Import) : List (Item Import) := (Tokens.fromIter (blockCalls n t)).items

theorem file_some (n : ItemStr) (t : Tokens Import) :
    file (some n) t = [(Tokens.fromIter (importCalls (some n) t.walkImports ++ blockCalls n t)).items] := by
  simp only [file, header, blockCalls, Tokens.fromIter, Tokens.appendTokens, Genco.extend_append]

theorem blockCalls_cons (n : ItemStr) (t : Tokens Import) :
    ∃ r, blockCalls n t = .literal (.static "namespace".toList) :: r := ⟨_, rfl⟩

theorem joined (n : ItemStr) (t : Tokens Import) :
    (Tokens.fromIter (importCalls (some n) t.walkImports ++ blockCalls n t)).items.map erase =
      ((header (some n) t).items ++ block n t).map erase := by
  obtain ⟨r, hr⟩ := blockCalls_cons n t
  unfold block
  rw [hr, List.map_append, fromIter_split _ _ _ rfl]
  have := fromIter_split [] r (Item.literal (.static "namespace".toList) : Item Import) rfl
  rw [List.nil_append] at this
  rw [this]
  rfl

theorem block_leads (n : ItemStr) (t : Tokens Import) (f : Import → List Str) :
    losesSpace f (block n t) = false := by
  obtain ⟨r, hr⟩ := blockCalls_cons n t
  have := fromIter_split [] r (Item.literal (.static "namespace".toList) : Item Import) rfl
  rw [List.nil_append, ← hr] at this
  unfold block
  generalize (Tokens.fromIter (blockCalls n t)).items = b at this
  cases b with
  | nil => rfl
  | cons i b =>
    have h : erase i = .literal (.static "namespace".toList) := (List.cons.inj this).1
    rw [erase_literal h]
    rfl

theorem head_join_list (L : Lang Import) (cfg : Config) (ls : List (List Bit)) (h : ∀ l ∈ ls, LineOk l)
    (body : List (Item Import)) :
    toFileVec L cfg [((Tokens.new : Tokens Import).extend
        (ls.flatMap (fun l => bitItems l ++ [.push]) ++ [.line])).items ++ body] =
      toFileVec L cfg [((Tokens.new : Tokens Import).extend
        (ls.flatMap (fun l => bitItems l ++ [.push]) ++ [.line])).items, body] := by
  cases ls with
  | nil =>
    have e : ∀ l : List (Item Import), resolve L cfg l.length false [Frame.default] l =
        res L cfg false [Frame.default] l := fun _ => rfl
    have hh : resolveItems L cfg ([.line] : List (Item Import)) = ([.line], some ()) := rfl
    have hi : ((Tokens.new : Tokens Import).extend
        (([] : List (List Bit)).flatMap (fun l => bitItems l ++ [.push]) ++ [.line])).items =
        ([.line] : List (Item Import)) := rfl
    rw [hi, toFileVec_eq, toFileVec_eq]
    have : resolveStreams L cfg [[Item.line] ++ body] = resolveStreams L cfg [[Item.line], body] := by
      simp only [resolveStreams, hh]
      simp only [resolveItems, e, List.singleton_append]
      rw [res_cons]
      simp only
      cases hb : (res L cfg false [Frame.default] body).2 <;> simp [pre, hb]
    rw [this]
  | cons l ls =>
    have h1 := h l (by simp)
    have h2 : ∀ x ∈ ls, LineOk x := fun x hx => h x (by simp [hx])
    rw [extend_after _ h (by simp)]
    have e : (bitItems l ++ (sepItems (ls.map (fun l => (Sep.push, l))) ++ [.line]) : List (Item Import)) =
        headItems false l (ls.map (fun l => (Sep.push, l))) := by
      simp [headItems]
    simp only [List.head!_cons, List.tail_cons]
    rw [e, extend_lines false l _ h1 (sepsOk_push h2), items_raw_new, head_join L cfg _ _ _ (sepsOk_push h2)]

theorem file_namespace (n : ItemStr) (cfg : Config) (t : Tokens Import) {us : List Str}
    (h : (resolved (some n) t.walkImports).lines = us.map lineBits) :
    toFileVec (lang (some n) t) cfg (file (some n) t) =
      (toVec (lang (some n) t) cfg (block n t)).map (fileLines (us.map usingLine)) := by
  rw [← header_file (some n) cfg t h _ (block_leads n t _), file_some,
    toFileVec_congr _ cfg (show List.map (List.map erase) [_] = List.map (List.map erase) [_] from
      congrArg (fun x => [x]) (joined n t))]
  simp only [header, importCalls_eq _ _ h]
  by_cases hw : t.walkImports = []
  · rw [if_pos hw]
    exact (toFileVec_single _ cfg _).trans (file_nohead _ cfg _ _ (.inl rfl)).symm
  · rw [if_neg hw]
    refine head_join_list _ cfg _ ?_ _
    intro b hb
    obtain ⟨e, -, rfl⟩ := List.mem_map.1 hb
    exact lineBits_ok e

/-! ## Resolution -/

/-- In a file a text names one type at most. -/
theorem denotes_unique {s : Scope} {ref p n p' n' : Str}
    (h : Denotes s ref p n) (h' : Denotes s ref p' n') : p = p' ∧ n = n' := by
  have dot : ∀ q m : Str, '.' ∈ q ++ '.' :: m := by simp
  have enc : ∀ {a b : Str}, Encloses s.namespace_ a → Encloses s.namespace_ b → a.length = b.length →
      a = b := by
    intro a b ha hb hl
    rcases ha with rfl | ⟨o, ho, ha⟩
    · exact (List.length_eq_zero_iff.1 hl.symm).symm
    · rcases hb with rfl | ⟨o', ho', hb⟩
      · exact List.length_eq_zero_iff.1 hl
      · have : o = o' := Option.some.inj (ho.symm.trans ho')
        subst this
        have ta : a = o.take a.length := by rcases ha with rfl | ⟨r, rfl⟩ <;> simp
        have tb : b = o.take b.length := by rcases hb with rfl | ⟨r, rfl⟩ <;> simp
        rw [ta, tb, hl]
  cases h with
  | around _ _ hn he hc hd =>
    cases h' with
    | around _ _ _ he' hc' hd' =>
      refine ⟨enc he he' ?_, rfl⟩
      rcases Nat.lt_trichotomy p.length p'.length with hl | hl | hl
      · exact absurd hc' (hd _ he' hl)
      · exact hl
      · exact absurd hc (hd' _ he hl)
    | used _ _ _ ha' => exact absurd hc (ha' _ he)
    | full => exact absurd (dot _ _) hn
  | used _ _ hn ha hm hc hu =>
    cases h' with
    | around _ _ _ he' hc' => exact absurd hc' (ha _ he')
    | used _ _ _ _ hm' hc' hu' => exact ⟨(hu _ hm' hc').symm, rfl⟩
    | full => exact absurd (dot _ _) hn
  | full _ _ hn hc =>
    generalize he : p ++ '.' :: n = r at h'
    cases h' with
    | around _ _ hn' => exact absurd (he ▸ dot _ _) hn'
    | used _ _ hn' => exact absurd (he ▸ dot _ _) hn'
    | full _ _ hn' =>
      have := lastPart_unique (c := '.') (p := p ++ '.' :: n) ⟨hn, .inr ⟨p, rfl⟩⟩ ⟨hn', .inr ⟨p', he⟩⟩
      subst this
      exact ⟨List.append_cancel_right he, rfl⟩

theorem denotes_bare {s : Scope} {ref p n : Str} (h : Denotes s ref p n) (hd : '.' ∉ ref) :
    (Encloses s.namespace_ p ∧ ∀ q, Encloses s.namespace_ q → s.types q n → q.length ≤ p.length) ∨
    ((∀ q, Encloses s.namespace_ q → ¬ s.types q n) ∧ ∀ q ∈ s.usings, s.types q n → q = p) := by
  cases h with
  | around _ _ _ he _ hi => exact .inl ⟨he, fun q hq ht => Nat.le_of_not_lt fun hl => hi q hq hl ht⟩
  | used _ _ _ ha _ _ hu => exact .inr ⟨ha, hu⟩
  | full => exact absurd hd (by simp)

/-- A type is named as asked for exactly if it is written with its namespace, or of
the own namespace, or its name is free. -/
theorem denotes_iff (ns : Option ItemStr) (l : List Import) (types : Str → Str → Prop) {us : List Str}
    (h : LoopOk (ns.map ItemStr.text) (keys l) (resolved ns l) us) (hp : ∀ i ∈ l, Proper types i)
    (i : Import) (hi : i ∈ l) :
    Denotes ⟨ns.map ItemStr.text, us, types⟩ (i.format ns (resolved ns l).names).flatten
      i.ns.text i.name.text ↔
    (i.qualified = false → Chosen (ns.map ItemStr.text) (l.map target) i.ns.text i.name.text →
      Free (ns.map ItemStr.text) types (l.map target) (target i)) := by
  obtain ⟨hn, hne, hc⟩ := hp i hi
  have hch : ∀ p n, mapGet n (resolved ns l).names = some p ↔ Chosen (ns.map ItemStr.text) (l.map target) p n := by
    intro p n
    rw [h.get]
    exact chosen_congr (mem_keys l) p n
  have hfull := Denotes.full (s := ⟨ns.map ItemStr.text, us, types⟩) _ _ hn hc
  unfold Import.format
  cases hq : i.qualified with
  | true => simpa using hfull
  | false =>
    simp only [Bool.false_or, true_implies]
    unfold isQualified
    by_cases ho : ns.map ItemStr.text = some i.ns.text
    · rw [if_pos ho]
      simp only [Bool.false_eq_true, if_false, List.nil_append, List.flatten_cons, List.flatten_nil,
        List.append_nil]
      refine iff_of_true ?_ (fun hx => absurd ho.symm hx.2.1)
      refine .around (s := ⟨ns.map ItemStr.text, us, types⟩) _ _ hn (.inr ⟨_, ho, .inl rfl⟩) hc ?_
      rintro ns' (rfl | ⟨o, ho', hns'⟩) hl
      · simp at hl
      · have : o = i.ns.text := Option.some.inj (ho'.symm.trans ho)
        subst this
        rcases hns' with hns' | ⟨r, hns'⟩
        · rw [hns'] at hl; exact absurd hl (by simp)
        · have := congrArg List.length hns'
          simp at this
          omega
    · rw [if_neg ho]
      obtain ⟨p, hget⟩ := h.all (target i) ((mem_keys l _).2 (List.mem_map.2 ⟨i, hi, rfl⟩))
        (fun e => ho e.symm)
      have hget : mapGet i.name.text (resolved ns l).names = some p := hget
      rw [hget]
      by_cases hpe : p = i.ns.text
      · subst hpe
        simp only [ne_eq, not_true_eq_false, decide_false, Bool.false_eq_true, if_false, List.nil_append,
          List.flatten_cons, List.flatten_nil, List.append_nil]
        have hchi := (hch _ _).1 hget
        refine Iff.trans ?_ (forall_prop_of_true hchi).symm
        constructor
        · intro hd
          rcases denotes_bare hd hn with ⟨he, hd⟩ | ⟨ha, hu⟩
          · exact .inl ⟨he, hd⟩
          · exact .inr ⟨ha, fun u m hum ht => hu u ((h.used u).2 ⟨m, (hch _ _).2 hum⟩) ht⟩
        · rintro (⟨he, hd⟩ | ⟨ha1, ha2⟩)
          · refine .around (s := ⟨ns.map ItemStr.text, us, types⟩) _ _ hn he hc ?_
            intro ns' he' hl ht
            exact absurd hl (Nat.not_lt.2 (hd ns' he' ht))
          · refine .used (s := ⟨ns.map ItemStr.text, us, types⟩) _ _ hn ha1 ((h.used _).2 ⟨_, hget⟩) hc ?_
            intro u hu ht
            obtain ⟨m, hm⟩ := (h.used u).1 hu
            exact ha2 u m ((hch _ _).1 hm) ht
      · simp only [ne_eq, hpe, not_false_eq_true, decide_true, if_true]
        refine iff_of_true (by simpa using hfull) (fun hx => ?_)
        have := (hch _ _).2 hx
        rw [hget] at this
        exact absurd (Option.some.inj this) hpe

theorem free_congr {own : Option Str} {types : Str → Str → Prop} {cs ds : List (Str × Str)}
    (h : ∀ c, c ∈ cs ↔ c ∈ ds) (c : Str × Str) : Free own types cs c ↔ Free own types ds c := by
  simp only [Free, chosen_congr h]

theorem apart_free {own : Option Str} {types : Str → Str → Prop} {cs : List (Str × Str)}
    (ha : Apart own types cs) {c : Str × Str} (h : Chosen own cs c.1 c.2) : Free own types cs c := by
  obtain ⟨h1, h2⟩ := ha _ _ h
  by_cases he : Encloses own c.1
  · exact .inl ⟨he, fun ns hn ht => by rw [h1 ns hn ht]⟩
  · exact .inr ⟨fun ns hn ht => he (h1 ns hn ht ▸ hn), h2⟩

theorem usingLine_inj {u v : Str} (h : usingLine u = usingLine v) : u = v :=
  List.append_cancel_right (command_inj h)

end Genco.Csharp
