import Verif.Proofs.Python
import Verif.Spec.Java

/-!
# Imports of Java
-/

set_option autoImplicit false

namespace Genco.Java

open Spec Spec.JavaFile

/-! ## The loop -/

/-- The bits of an import line. -/
def lineBits (e : ItemStr × ItemStr) : List Bit :=
  [word "import", .space, .lit e.1, boxed ".", .lit e.2, word ";"]

/-- The text pair of a stored pair. -/
def pairText (e : ItemStr × ItemStr) : Str × Str := (e.1.text, e.2.text)

/-- What holds of the state after a part of the list: `ims` are the imports made. -/
structure LoopOk (package : Option ItemStr) (es : List (ItemStr × ItemStr))
    (s : Imported × List (List Bit)) (ims : List (ItemStr × ItemStr)) : Prop where
  keys : KeysIncreasing s.1
  lines : s.2 = ims.map lineBits
  get : ∀ n p, mapGet n s.1 = some p ↔ (p, n) ∈ ims.map pairText
  nodup : (ims.map (·.2.text)).Nodup
  sub : ims.Sublist es
  foreign : ∀ e ∈ ims, Foreign (package.map ItemStr.text) (pairText e)
  all : ∀ e ∈ es, Foreign (package.map ItemStr.text) (pairText e) → ∃ p, mapGet e.2.text s.1 = some p
  first : ∀ e ∈ ims, ∃ a b, es = a ++ e :: b ∧
    ∀ e' ∈ a, Foreign (package.map ItemStr.text) (pairText e') → e'.2.text ≠ e.2.text

theorem mapGet_mapInsert {n k : Str} {v : Str} {m : Imported} (h : KeysIncreasing m) :
    mapGet n (mapInsert k v m) = if n = k then some v else mapGet n m := by
  rw [mapInsert, mapGet_mapModify _ _ _ _ _ h]

theorem addImport_ok (package : Option ItemStr) (es : List (ItemStr × ItemStr))
    (s : Imported × List (List Bit)) (ims : List (ItemStr × ItemStr)) (h : LoopOk package es s ims)
    (e : ItemStr × ItemStr) : ∃ ims', LoopOk package (es ++ [e]) (addImport package s e) ims' := by
  obtain ⟨m, ls⟩ := s
  have keep : (Foreign (package.map ItemStr.text) (pairText e) → ∃ p, mapGet e.2.text m = some p) →
      LoopOk package (es ++ [e]) (m, ls) ims := by
    intro hf
    refine ⟨h.keys, h.lines, h.get, h.nodup, h.sub.trans (List.sublist_append_left ..), h.foreign, ?_, ?_⟩
    · intro e' he'
      rcases List.mem_append.1 he' with he' | he'
      · exact h.all e' he'
      · rw [List.mem_singleton.1 he']; exact hf
    · intro e' he'
      obtain ⟨a, b, rfl, ha⟩ := h.first e' he'
      exact ⟨a, b ++ [e], by simp, ha⟩
  unfold addImport
  by_cases h1 : (mapGet e.2.text m).isSome
  · rw [if_pos h1]
    exact ⟨ims, keep (fun _ => Option.isSome_iff_exists.1 h1)⟩
  · rw [if_neg h1]
    by_cases h2 : e.1.text = javaLangPkg
    · rw [if_pos h2]
      exact ⟨ims, keep (fun hf => absurd h2 hf.1)⟩
    · rw [if_neg h2]
      by_cases h3 : some e.1.text = package.map ItemStr.text
      · rw [if_pos h3]
        exact ⟨ims, keep (fun hf => absurd h3 hf.2)⟩
      · rw [if_neg h3]
        have hnone : ∀ p, (p, e.2.text) ∉ ims.map pairText := by
          intro p hp
          have hg := (h.get e.2.text p).2 hp
          simp only at h1 hg
          rw [hg] at h1
          simp at h1
        refine ⟨ims ++ [e], ?_, ?_, ?_, ?_, ?_, ?_, ?_, ?_⟩
        · exact keysIncreasing_mapModify _ _ _ _ h.keys
        · have hl : ls = ims.map lineBits := h.lines
          simp only [hl, List.map_append, List.map_cons, List.map_nil]
          rfl
        · intro n p
          simp only [mapGet_mapInsert h.keys, List.map_append, List.map_cons, List.map_nil,
            List.mem_append, List.mem_singleton]
          by_cases hn : n = e.2.text
          · rw [if_pos hn]
            subst hn
            constructor
            · intro hp; right; rw [← Option.some.inj hp]; rfl
            · rintro (hp | hp)
              · exact absurd hp (hnone p)
              · rw [pairText, Prod.mk.injEq] at hp; rw [hp.1]
          · rw [if_neg hn, h.get]
            constructor
            · exact Or.inl
            · rintro (hp | hp)
              · exact hp
              · rw [pairText, Prod.mk.injEq] at hp; exact absurd hp.2 hn
        · rw [List.map_append, List.nodup_append]
          refine ⟨h.nodup, by simp, ?_⟩
          intro a ha b hb hab
          simp only [List.map_cons, List.map_nil, List.mem_singleton] at hb
          obtain ⟨x, hx, rfl⟩ := List.mem_map.1 ha
          exact hnone x.1.text (List.mem_map.2 ⟨x, hx, by rw [pairText, hab, hb]⟩)
        · exact h.sub.append (List.Sublist.refl _)
        · intro e' he'
          rcases List.mem_append.1 he' with he' | he'
          · exact h.foreign e' he'
          · rw [List.mem_singleton.1 he']; exact ⟨h2, h3⟩
        · intro e' he' hf
          simp only [mapGet_mapInsert h.keys]
          by_cases hn : e'.2.text = e.2.text
          · rw [if_pos hn]; exact ⟨_, rfl⟩
          · rw [if_neg hn]
            rcases List.mem_append.1 he' with he' | he'
            · exact h.all e' he' hf
            · rw [List.mem_singleton.1 he'] at hn; exact absurd rfl hn
        · intro e' he'
          rcases List.mem_append.1 he' with he' | he'
          · obtain ⟨a, b, rfl, ha⟩ := h.first e' he'
            exact ⟨a, b ++ [e], by simp, ha⟩
          · rw [List.mem_singleton.1 he']
            refine ⟨es, [], rfl, ?_⟩
            intro x hx hf hxe
            obtain ⟨p, hp⟩ := h.all x hx hf
            rw [hxe] at hp
            exact hnone p ((h.get _ _).1 hp)

theorem foldl_ok (package : Option ItemStr) (es : List (ItemStr × ItemStr)) :
    ∃ ims, LoopOk package es (es.foldl (addImport package) ([], [])) ims := by
  induction es using list_rec_right with
  | h0 => exact ⟨[], List.Pairwise.nil, rfl, by simp [mapGet], by simp, by simp, by simp, by simp, by simp⟩
  | h1 es e ih =>
    obtain ⟨ims, h⟩ := ih
    rw [List.foldl_append]
    exact addImport_ok package es _ ims h e

/-- The stored pairs, sorted. -/
def keys (l : List Import) : List (ItemStr × ItemStr) := setOf (l.map (fun i => (i.package, i.name)))

theorem resolved_ok (package : Option ItemStr) (l : List Import) :
    ∃ ims, LoopOk package (keys l) (resolved package l) ims := foldl_ok package (keys l)

theorem mem_keys (l : List Import) (e : ItemStr × ItemStr) :
    e ∈ keys l ↔ ∃ i ∈ l, (i.package, i.name) = e := by simp [keys]

/-- An import is made for the first of the pairs that share their name. -/
theorem mem_ims (package : Option ItemStr) (l : List Import) {ims : List (ItemStr × ItemStr)}
    (h : LoopOk package (keys l) (resolved package l) ims) (e : ItemStr × ItemStr) :
    e ∈ ims ↔ e ∈ keys l ∧ Foreign (package.map ItemStr.text) (pairText e) ∧
      ∀ x ∈ keys l, Foreign (package.map ItemStr.text) (pairText x) → x.2.text = e.2.text →
        compare e x ≠ .gt := by
  have hinc : (keys l).Pairwise (fun a b => compare a b = .lt) := increasing_setOf _
  have fst : ∀ e ∈ ims, ∀ x ∈ keys l, Foreign (package.map ItemStr.text) (pairText x) →
      x.2.text = e.2.text → compare e x ≠ .gt := by
    intro e he x hx hf hxe
    obtain ⟨a, b, hab, ha⟩ := h.first e he
    rw [hab] at hx hinc
    rcases List.mem_append.1 hx with hx | hx
    · exact absurd hxe (ha x hx hf)
    · rcases List.mem_cons.1 hx with rfl | hx
      · rw [Std.ReflCmp.compare_self (cmp := compare)]; simp
      · have := List.rel_of_pairwise_cons (List.pairwise_append.1 hinc).2.1 hx
        rw [this]; simp
  constructor
  · intro he
    exact ⟨h.sub.subset he, h.foreign e he, fst e he⟩
  · rintro ⟨hk, hf, hle⟩
    obtain ⟨p, hp⟩ := h.all e hk hf
    obtain ⟨x, hx, hpx⟩ := List.mem_map.1 ((h.get _ _).1 hp)
    have hn : x.2.text = e.2.text := congrArg Prod.snd hpx
    have h1 := fst x hx e hk hf hn.symm
    have h2 := hle x (h.sub.subset hx) (h.foreign x hx) hn
    have : compare e x = .eq := by
      cases hc : compare e x with
      | eq => rfl
      | gt => exact absurd hc h2
      | lt => exact absurd (Std.OrientedCmp.gt_of_lt hc) h1
    rw [Std.LawfulEqCmp.eq_of_compare this]
    exact hx

/-! ## The file -/

theorem lineBits_ok (e : ItemStr × ItemStr) : LineOk (lineBits e) :=
  ⟨rfl, ⟨_, _, rfl, rfl⟩, ⟨[word "import", .space, .lit e.1, boxed ".", .lit e.2], _, rfl, rfl⟩⟩

theorem packageBits_ok (p : ItemStr) : LineOk [word "package", .space, .lit p, word ";"] :=
  ⟨rfl, ⟨_, _, rfl, rfl⟩, ⟨[word "package", .space, .lit p], _, rfl, rfl⟩⟩

theorem lineBits_text {ι : Type} (L : Lang ι) (e : ItemStr × ItemStr) :
    lineText L (lineBits e) = importLine e.1.text e.2.text := by
  have hl : ∃ r b, lineBits e = r ++ [b] ∧ b.shows = true :=
    ⟨[word "import", .space, .lit e.1, boxed ".", .lit e.2], word ";", rfl, by decide⟩
  rw [lineText_of_last L hl, importLine, command_ne _ (by simp)]
  simp [lineBits, bitsText, bitText_lit, bitText_space, bitText_word, bitText_boxed]

theorem packageBits_text {ι : Type} (L : Lang ι) (p : ItemStr) :
    lineText L [word "package", .space, .lit p, word ";"] = packageLine p.text := by
  have hl : ∃ r b, [word "package", .space, .lit p, word ";"] = r ++ [b] ∧ b.shows = true :=
    ⟨[word "package", .space, .lit p], word ";", rfl, by decide⟩
  rw [lineText_of_last L hl, packageLine, command_ne _ (by simp)]
  simp [bitsText, bitText_lit, bitText_space, bitText_word, bitText_boxed]

theorem fromIter_items {ι : Type} {l : List Bit} (h : LineOk l) :
    (Tokens.fromIter (bitItems l) : Tokens ι).items = bitItems l := by
  rw [Tokens.fromIter, h.extend, items_raw_new]

theorem importCalls_eq (package : Option ItemStr) (l : List Import) {ims : List (ItemStr × ItemStr)}
    (h : (resolved package l).2 = ims.map lineBits) :
    importCalls package l = if l = [] then [] else
      (ims.map lineBits).flatMap (fun b => bitItems b ++ [.push]) ++ [.line] := by
  simp only [importCalls, List.isEmpty_iff, h, List.flatMap_map, fromIter_items (lineBits_ok _)]

theorem file_eq (package : Option ItemStr) (cfg : Config) (t : Tokens Import)
    (hb : losesSpace (lang package t).langItem t.items = false) {ims : List (ItemStr × ItemStr)}
    (h : (resolved package t.walkImports).2 = ims.map lineBits) :
    toFileVec (lang package t) cfg (file package t) =
      (toVec (lang package t) cfg t.items).map (fileLines (paragraphs
        [(package.map (fun p => packageLine p.text)).toList,
         ims.map (fun e => importLine e.1.text e.2.text)])) := by
  have hd : Delim (lang package t) := delim_base _ _
  have hls : ∀ b ∈ ims.map lineBits, LineOk b := by
    intro b hb
    obtain ⟨e, -, rfl⟩ := List.mem_map.1 hb
    exact lineBits_ok e
  have ht : (ims.map lineBits).map (lineText (lang package t)) =
      ims.map (fun e => importLine e.1.text e.2.text) := by
    rw [List.map_map]
    exact List.map_congr_left (fun e _ => lineBits_text _ e)
  have hnil : t.walkImports = [] → ims = [] := by
    intro hw
    rw [hw] at h
    exact List.map_eq_nil_iff.1 h.symm
  rcases package with _ | p
  · simp only [file, header, importCalls_eq _ _ h]
    by_cases hw : t.walkImports = []
    · rw [if_pos hw, hnil hw]
      exact file_none _ cfg _
    · rw [if_neg hw, file_after _ hd cfg _ hls _ hb, ht]
      congr 2
      cases ims <;> simp [paragraphs]
  · simp only [file, header, importCalls_eq _ _ h]
    by_cases hw : t.walkImports = []
    · rw [if_pos hw, hnil hw]
      refine (file_para_only _ hd cfg _ (packageBits_ok p) _ hb).trans ?_
      rw [packageBits_text]
      simp [paragraphs]
    · rw [if_neg hw, file_para _ hd cfg _ (packageBits_ok p) _ hls _ hb, ht, packageBits_text]
      rfl

/-! ## Resolution -/

/-- The scope of a file. -/
def scope (package : Option ItemStr) (classes : Str → Str → Prop) (ims : List (ItemStr × ItemStr)) : Scope :=
  ⟨package.map ItemStr.text, ims.map pairText, classes⟩

/-- In a file a text names one class at most. -/
theorem denotes_unique {s : Scope} {ref p n p' n' : Str}
    (h : Denotes s ref p n) (h' : Denotes s ref p' n') : p = p' ∧ n = n' := by
  have dot : ∀ q m : Str, '.' ∈ q ++ '.' :: m := by simp
  cases h with
  | imported _ _ hn hi hu =>
    cases h' with
    | imported _ _ _ hi' _ => exact ⟨(hu _ hi').symm, rfl⟩
    | own _ _ hi' => exact absurd hi (hi' _)
    | lang _ _ hi' => exact absurd hi (hi' _)
    | full => exact absurd (dot _ _) hn
  | own _ hn hi hc =>
    cases h' with
    | imported _ _ _ hi' _ => exact absurd hi' (hi _)
    | own => exact ⟨rfl, rfl⟩
    | lang _ _ _ ho => exact absurd hc ho
    | full => exact absurd (dot _ _) hn
  | lang _ hn hi ho hc =>
    cases h' with
    | imported _ _ _ hi' _ => exact absurd hi' (hi _)
    | own _ _ _ hc' => exact absurd hc' ho
    | lang => exact ⟨rfl, rfl⟩
    | full => exact absurd (dot _ _) hn
  | full _ _ hn hc =>
    generalize he : p ++ '.' :: n = r at h'
    cases h' with
    | imported _ _ hn' => exact absurd (he ▸ dot _ _) hn'
    | own _ hn' => exact absurd (he ▸ dot _ _) hn'
    | lang _ hn' => exact absurd (he ▸ dot _ _) hn'
    | full _ _ hn' =>
      have := lastPart_unique (c := '.') (p := p ++ '.' :: n) ⟨hn, .inr ⟨p, rfl⟩⟩ ⟨hn', .inr ⟨p', he⟩⟩
      subst this
      exact ⟨List.append_cancel_right he, rfl⟩

/-- A class is named as asked for exactly if it is foreign or its name is free. -/
theorem denotes_iff (package : Option ItemStr) (l : List Import) (classes : Str → Str → Prop)
    {ims : List (ItemStr × ItemStr)} (h : LoopOk package (keys l) (resolved package l) ims)
    (hp : ∀ i ∈ l, Proper classes i) (i : Import) (hi : i ∈ l) :
    Denotes (scope package classes ims) (i.format package (resolved package l).1).flatten
      i.package.text i.name.text ↔
    (Foreign (package.map ItemStr.text) (target i) ∨
      Free (package.map ItemStr.text) classes (l.map target) (target i)) := by
  obtain ⟨hn, hpk, hc⟩ := hp i hi
  have huniq : ∀ n p p', (p, n) ∈ ims.map pairText → (p', n) ∈ ims.map pairText → p' = p := by
    intro n p p' h1 h2
    have := ((h.get n p).2 h1).symm.trans ((h.get n p').2 h2)
    exact (Option.some.inj this).symm
  have himp : ∀ p n, (p, n) ∈ ims.map pairText → ∃ j ∈ l, target j = (p, n) ∧
      Foreign (package.map ItemStr.text) (p, n) := by
    intro p n hm
    obtain ⟨e, he, hpe⟩ := List.mem_map.1 hm
    obtain ⟨j, hj, rfl⟩ := (mem_keys l e).1 (h.sub.subset he)
    exact ⟨j, hj, hpe, hpe ▸ h.foreign _ he⟩
  have hfree : (∀ d ∈ l.map target, Foreign (package.map ItemStr.text) d → d.2 ≠ (target i).2) ↔
      ∀ p, (p, i.name.text) ∉ ims.map pairText := by
    constructor
    · intro hf p hm
      obtain ⟨j, hj, hjt, hjf⟩ := himp p _ hm
      exact hf (target j) (List.mem_map.2 ⟨j, hj, rfl⟩) (hjt ▸ hjf) (by rw [hjt]; rfl)
    · intro hf d hd hdf hdn
      obtain ⟨j, hj, rfl⟩ := List.mem_map.1 hd
      obtain ⟨p, hp⟩ := h.all (j.package, j.name) ((mem_keys l _).2 ⟨j, hj, rfl⟩) hdf
      have hdn : j.name.text = i.name.text := hdn
      exact hf p (hdn ▸ (h.get _ _).1 hp)
  unfold Import.format
  by_cases ho : package.map ItemStr.text = some i.package.text
  · rw [if_neg (by simp [ho])]
    have hown : (scope package classes ims).own = i.package.text := by simp [scope, Scope.own, ho]
    have hnf : ¬ Foreign (package.map ItemStr.text) (target i) := fun hf => hf.2 (by rw [ho]; rfl)
    rw [or_iff_right hnf, Free, hfree]
    simp only [List.nil_append, List.flatten_cons, List.flatten_nil, List.append_nil]
    constructor
    · intro hd
      refine ⟨fun p hm => ?_, fun hx => absurd ho.symm hx⟩
      obtain ⟨j, hj, hjt, hjf⟩ := himp p _ hm
      have := denotes_unique hd (Denotes.imported (s := scope package classes ims) _ _ hn hm
          (fun p' hp' => huniq _ _ _ hm hp'))
      rw [← this.1] at hjf
      exact hnf hjf
    · intro hf
      have := Denotes.own (s := scope package classes ims) i.name.text hn hf.1 (by rw [hown]; exact hc)
      rw [hown] at this
      exact this
  · by_cases hj : i.package.text = javaLangPkg
    · rw [if_neg (by simp [hj])]
      have hl : i.package.text = langPackage := hj
      have hnf : ¬ Foreign (package.map ItemStr.text) (target i) := fun hf => hf.1 hj
      rw [or_iff_right hnf, Free, hfree]
      simp only [List.nil_append, List.flatten_cons, List.flatten_nil, List.append_nil]
      constructor
      · intro hd
        have hims : ∀ p, (p, i.name.text) ∉ ims.map pairText := by
          intro p hm
          obtain ⟨j, hj, hjt, hjf⟩ := himp p _ hm
          have := denotes_unique hd (Denotes.imported (s := scope package classes ims) _ _ hn hm
              (fun p' hp' => huniq _ _ _ hm hp'))
          rw [← this.1] at hjf
          exact hnf hjf
        refine ⟨hims, fun _ hx => ?_⟩
        have := denotes_unique hd (Denotes.own (s := scope package classes ims) _ hn hims hx)
        cases hpk' : package.map ItemStr.text with
        | none =>
          apply hpk
          rw [this.1]
          simp [scope, Scope.own, hpk']
        | some o =>
          apply ho
          rw [hpk', this.1]
          simp [scope, Scope.own, hpk']
      · intro hf
        have := Denotes.lang (s := scope package classes ims) i.name.text hn
          hf.1 (hf.2 (fun e => ho e.symm)) (by rw [← hl]; exact hc)
        rw [← hl] at this
        exact this
    · refine iff_of_true ?_ (.inl ⟨hj, fun e => ho e.symm⟩)
      by_cases hm : mapGet i.name.text (resolved package l).1 = some i.package.text
      · rw [if_neg (by simp [hm])]
        have hmem := (h.get _ _).1 hm
        have := Denotes.imported (s := scope package classes ims) _ _ hn hmem
          (fun p' hp' => huniq _ _ _ hmem hp')
        simpa using this
      · rw [if_pos ⟨hj, hm, ho⟩]
        have := Denotes.full (s := scope package classes ims) _ _ hn hc
        simpa using this

theorem free_congr {package : Option Str} {classes : Str → Str → Prop} {cs ds : List (Str × Str)}
    (h : ∀ c, c ∈ cs ↔ c ∈ ds) (c : Str × Str) : Free package classes cs c ↔ Free package classes ds c := by
  simp only [Free, h]

/-- All names are as asked for exactly if foreign names are apart from the others. -/
theorem apart_iff {package : Option Str} {classes : Str → Str → Prop} {cs : List (Str × Str)} :
    Apart package classes cs ↔ ∀ c ∈ cs, Foreign package c ∨ Free package classes cs c := by
  constructor
  · intro ha c hc
    by_cases hf : Foreign package c
    · exact .inl hf
    · refine .inr ⟨fun d hd hdf => ha.1 d hd c hc hdf hf, fun ho => ?_⟩
      refine ha.2 c hc ?_ ho
      exact Classical.byContradiction fun hl => hf ⟨hl, ho⟩
  · intro h
    refine ⟨fun c hc d hd hcf hdf => ?_, fun c hc hl ho => ?_⟩
    · exact ((h d hd).resolve_left hdf).1 c hc hcf
    · exact ((h c hc).resolve_left (fun hf => hf.1 hl)).2 ho

theorem importLine_inj {p n p' n' : Str} (hn : '.' ∉ n) (hn' : '.' ∉ n')
    (h : importLine p n = importLine p' n') : p = p' ∧ n = n' := by
  unfold importLine at h
  have h := command_inj h
  have h : (p ++ '.' :: n) ++ [';'] = (p' ++ '.' :: n') ++ [';'] := by simpa using h
  have h := List.append_cancel_right h
  have := lastPart_unique (c := '.') (p := p ++ '.' :: n) ⟨hn, .inr ⟨p, rfl⟩⟩ ⟨hn', .inr ⟨p', h⟩⟩
  subst this
  exact ⟨List.append_cancel_right h, rfl⟩

end Genco.Java
