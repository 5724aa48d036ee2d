import Verif.Proofs.Headers
import Verif.Proofs.Inject
import Verif.Spec.Simple

/-!
# Headers of Go, C, Swift and Dart
-/

set_option autoImplicit false

namespace Genco

open Spec

variable {ι : Type}

theorem bitText_quoted (L : Lang ι) (s : ItemStr) : Bit.text L (.quoted s) = stringLit L s.text := by
  simp [Bit.text, stringLit]

theorem stringLit_ne (L : Lang ι) (hL : Delim L) (s : Str) : stringLit L s ≠ [] := by
  obtain ⟨x, r, h, hne⟩ := hL.openQ false
  simp [stringLit, h, hne]

theorem command_ne (k : String) {s : Str} (h : s ≠ []) : command k s = k.toList ++ ' ' :: s := if_neg h

theorem bitText_lit (L : Lang ι) (s : ItemStr) : Bit.text L (.lit s) = s.text := rfl
theorem bitText_space (L : Lang ι) : Bit.text L .space = [' '] := rfl
theorem bitText_word (L : Lang ι) (s : String) : Bit.text L (word s) = s.toList := rfl
theorem bitText_boxed (L : Lang ι) (s : String) : Bit.text L (boxed s) = s.toList := rfl

/-- A keyword, a space and a text that may be empty. -/
theorem lineText_command (L : Lang ι) (k : String) (s : ItemStr) (hk : k.toList ≠ []) :
    lineText L [word k, .space, .lit s] = command k s.text := by
  have h3 : (word k).shows = true := by simpa [word, Bit.shows, ItemStr.text] using hk
  have hw : Bit.text L (word k) = k.toList := rfl
  by_cases h : s.text = []
  · have h1 : (Bit.lit s).shows = false := by simp [Bit.shows, h]
    have h2 : Bit.space.shows = false := rfl
    have e : trimBits [word k, .space, .lit s] = [word k] := by
      simp [trimBits, List.dropWhile_cons, h1, h2, h3]
    rw [lineText, e, command, if_pos h]
    simp [bitsText, hw]
  · refine (lineText_of_last L (l := [word k, .space, .lit s])
      ⟨[word k, .space], .lit s, rfl, by simp [Bit.shows, h]⟩).trans ?_
    rw [command, if_neg h]
    simp [bitsText, hw, bitText_lit, bitText_space]

theorem command_inj {k : String} {s t : Str} (h : command k s = command k t) : s = t := by
  unfold command at h
  by_cases h1 : s = [] <;> by_cases h2 : t = []
  · rw [h1, h2]
  · rw [if_pos h1, if_neg h2] at h
    have := congrArg List.length h
    simp at this
  · rw [if_neg h1, if_pos h2] at h
    have := congrArg List.length h
    simp at this
  · rw [if_neg h1, if_neg h2] at h
    simpa using h

theorem lineOk_command (k : String) (s : ItemStr) (hk : k.toList ≠ []) :
    LineOk [word k, .space, .lit s] :=
  ⟨rfl, ⟨_, _, rfl, by simpa [word, Bit.shows, ItemStr.text] using hk⟩,
    ⟨[word k, .space], .lit s, rfl, rfl⟩⟩

/-- Literals can be told apart, whatever follows. -/
theorem stringLit_split {esc : Char → Str} (L : Lang ι) (hw : ∀ s, L.writeQuoted s = s.map esc)
    (ho : L.openQuote false = [['"']]) (hc : L.closeQuote false = [['"']])
    (hs : ∀ c, Skipped (esc c)) (hp : PrefixCode esc) (hne : ∀ c, esc c ≠ []) {s t r r' : Str}
    (h : stringLit L s ++ r = stringLit L t ++ r') : s = t ∧ r = r' := by
  have e : ∀ s r, stringLit L s ++ r = '"' :: (s.flatMap esc ++ '"' :: r) := by
    intro s r
    simp [stringLit, hw, ho, hc, List.flatMap]
  rw [e, e] at h
  have h := (List.cons.inj h).2
  have h1 := closeAt_skipped (.flatMap hs s) r
  rw [h, closeAt_skipped (.flatMap hs t) r'] at h1
  simp only [Option.some.injEq, Prod.mk.injEq] at h1
  exact ⟨hp.flatMap hne h1.1.symm, h1.2.symm⟩

theorem stringLit_go {s t r r' : Str} (h : stringLit Go.lang s ++ r = stringLit Go.lang t ++ r') :
    s = t ∧ r = r' :=
  stringLit_split Go.lang (fun _ => rfl) rfl rfl skipped_cFamily prefix_cFamily escCFamily_ne h

theorem stringLit_c {s t r r' : Str} (h : stringLit C.lang s ++ r = stringLit C.lang t ++ r') :
    s = t ∧ r = r' :=
  stringLit_split C.lang (fun _ => rfl) rfl rfl skipped_cFamily prefix_cFamily escCFamily_ne h

theorem stringLit_dart {s t r r' : Str} (h : stringLit Dart.lang s ++ r = stringLit Dart.lang t ++ r') :
    s = t ∧ r = r' :=
  stringLit_split Dart.lang (fun _ => rfl) rfl rfl skipped_dart prefix_dart escDart_ne h

/-- A list without repetitions mapped by a function that is injective on it. -/
theorem nodup_map {α β : Type} {f : α → β} {l : List α} (h : l.Nodup)
    (hf : ∀ a ∈ l, ∀ b ∈ l, f a = f b → a = b) : (l.map f).Nodup := by
  rw [List.Nodup, List.pairwise_map]
  exact h.imp_of_mem (fun ha hb hab e => hab (hf _ ha _ hb e))

theorem inj_of_nodup_map {α β : Type} {f : α → β} {l : List α} (h : (l.map f).Nodup) :
    ∀ a ∈ l, ∀ b ∈ l, f a = f b → a = b := by
  induction l with
  | nil => intro a ha; cases ha
  | cons x l ih =>
    rw [List.map_cons, List.nodup_cons] at h
    intro a ha b hb e
    rcases List.mem_cons.1 ha with rfl | ha' <;> rcases List.mem_cons.1 hb with rfl | hb'
    · rfl
    · exact absurd (e ▸ List.mem_map_of_mem hb') h.1
    · exact absurd (e ▸ List.mem_map_of_mem ha') h.1
    · exact ih h.2 a ha' b hb' e

theorem sorted_map {α β : Type} [Ord α] [Ord β] {f : α → β} {l : List α} (h : Sorted l)
    (hf : ∀ a ∈ l, ∀ b ∈ l, compare a b = compare (f a) (f b)) : Sorted (l.map f) := by
  rw [Sorted, List.pairwise_map]
  exact h.imp_of_mem (fun ha hb hab => by rw [← hf _ ha _ hb]; exact hab)

/-- Texts stored the same way compare as texts. -/
theorem compare_static (a b : Str) : compare (ItemStr.static a) (.static b) = compare a b := rfl
theorem compare_box (a b : Str) : compare (ItemStr.box a) (.box b) = compare a b := rfl

theorem _root_.Genco.Spec.SameStorage.compare {strs : ι → List ItemStr} {l : List ι} (h : SameStorage strs l) {i j : ι}
    (hi : i ∈ l) (hj : j ∈ l) {x y : ItemStr} (hx : x ∈ strs i) (hy : y ∈ strs j) :
    Ord.compare x y = Ord.compare x.text y.text := by
  rcases h with h | h
  · obtain ⟨s, rfl⟩ := h i hi x hx
    obtain ⟨t, rfl⟩ := h j hj y hy
    rfl
  · obtain ⟨s, rfl⟩ := h i hi x hx
    obtain ⟨t, rfl⟩ := h j hj y hy
    rfl

theorem compare_pair {α β : Type} [Ord α] [Ord β] (x y : α × β) :
    Ord.compare x y = (Ord.compare x.1 y.1).then (Ord.compare x.2 y.2) := rfl

theorem lastSeg1_spec (c : Char) (s : Str) : LastPart c s (lastSeg1 c s) := by
  have h := List.takeWhile_append_dropWhile (p := (· ≠ c)) (l := s.reverse)
  refine ⟨?_, ?_⟩
  · have : ∀ l : Str, c ∉ l.takeWhile (fun x => x ≠ c) := by
      intro l
      induction l with
      | nil => simp
      | cons a l ih =>
        rw [List.takeWhile_cons]
        by_cases ha : a = c
        · simp [ha]
        · rw [if_pos (by simpa using ha), List.mem_cons, not_or]
          exact ⟨Ne.symm ha, ih⟩
    intro hm
    exact this _ (by simpa [lastSeg1] using hm)
  · have hs := congrArg List.reverse h
    rw [List.reverse_append, List.reverse_reverse] at hs
    cases hd : List.dropWhile (fun x => decide (x ≠ c)) s.reverse with
    | nil =>
      rw [hd] at hs
      exact .inl (by simpa [lastSeg1] using hs.symm)
    | cons a r =>
      have ha : a = c := by
        have := List.head?_dropWhile_not (p := fun x : Char => decide (x ≠ c)) (l := s.reverse)
        rw [hd] at this
        simpa using this
      subst ha
      rw [hd] at hs
      refine .inr ⟨r.reverse, ?_⟩
      simpa [lastSeg1] using hs.symm

theorem lastPart_unique {c : Char} {p s t : Str} (hs : LastPart c p s) (ht : LastPart c p t) : s = t := by
  obtain ⟨hs, hs'⟩ := hs
  obtain ⟨ht, ht'⟩ := ht
  have key : ∀ (s t q q' : Str), c ∉ s → c ∉ t → q ++ c :: s = q' ++ c :: t → s = t := by
    intro s t q q' hs ht h
    rcases List.append_eq_append_iff.1 h with ⟨a, -, h2⟩ | ⟨a, -, h2⟩
    · cases a with
      | nil => simpa using h2
      | cons x a =>
        have : c ∈ s := by
          rw [(List.cons.inj (h2.trans (List.cons_append ..))).2]; simp
        exact absurd this hs
    · cases a with
      | nil => simpa using h2.symm
      | cons x a =>
        have : c ∈ t := by
          rw [(List.cons.inj (h2.trans (List.cons_append ..))).2]; simp
        exact absurd this ht
  rcases hs' with rfl | ⟨q, rfl⟩ <;> rcases ht' with h | ⟨q', h⟩
  · exact h
  · exact absurd (by rw [h]; simp) hs
  · exact absurd (by rw [← h]; simp) ht
  · exact key _ _ _ _ hs ht h

/-! ## Go -/

namespace Go

/-- The modules imported, in order. -/
def keys (l : List Import) : List ItemStr := setOf (l.map Import.module)

def lineBits (m : ItemStr) : List Bit := [word "import", .space, .quoted m]

theorem lineBits_ok (m : ItemStr) : LineOk (lineBits m) :=
  ⟨rfl, ⟨_, _, rfl, rfl⟩, ⟨[word "import", .space], .quoted m, rfl, rfl⟩⟩

theorem lineBits_text (m : ItemStr) : lineText lang (lineBits m) = GoFile.importLine m.text := by
  have hl : ∃ r b, lineBits m = r ++ [b] ∧ b.shows = true :=
    ⟨[word "import", .space], .quoted m, rfl, rfl⟩
  rw [lineText_of_last lang hl]
  rw [GoFile.importLine, command_ne _ (stringLit_ne lang (delim_base _ _) _)]
  simp [bitsText, lineBits, bitText_quoted, bitText_space, bitText_word]

theorem importCalls_eq (l : List Import) : importCalls l =
    if keys l = [] then [] else (((keys l).map lineBits).flatMap (fun l => bitItems l ++ [.push]) ++ [.line]) := by
  simp only [importCalls, keys, List.flatMap_map, List.isEmpty_iff]
  rfl

theorem file_eq (package : Option ItemStr) (cfg : Config) (t : Tokens Import)
    (hb : losesSpace lang.langItem t.items = false) :
    toFileVec lang cfg (file package t) = (toVec lang cfg t.items).map (fileLines
      (paragraphs [(package.map (fun p => GoFile.packageLine p.text)).toList,
        (keys t.walkImports).map (fun m => GoFile.importLine m.text)])) := by
  have hL : Delim lang := delim_base _ _
  have hok : ∀ l ∈ (keys t.walkImports).map lineBits, LineOk l := by
    intro l hl
    obtain ⟨m, -, rfl⟩ := List.mem_map.1 hl
    exact lineBits_ok m
  have htext : ((keys t.walkImports).map lineBits).map (lineText lang) =
      (keys t.walkImports).map (fun m => GoFile.importLine m.text) := by
    simp [lineBits_text]
  simp only [file, header, importCalls_eq]
  cases package with
  | none =>
    simp only [Option.map_none, Option.toList_none, paragraphs, if_true]
    by_cases hk : keys t.walkImports = []
    · rw [if_pos hk, hk]
      exact file_none lang cfg _
    · rw [if_neg hk, file_after lang hL cfg _ hok _ hb, htext]
      simp [hk]
  | some p =>
    have hp := lineOk_command "package" p (by decide)
    have hpt := lineText_command lang "package" p (by decide)
    by_cases hk : keys t.walkImports = []
    · rw [if_pos hk, hk]
      have e : ((Tokens.new : Tokens Import).extend
        (bitItems [word "package", .space, .lit p] ++ [Item.line])).extend [] =
        (Tokens.new : Tokens Import).extend
        (bitItems [word "package", .space, .lit p] ++ [Item.line]) := rfl
      simp only [e]
      rw [file_para_only lang hL cfg _ hp _ hb, hpt]
      rfl
    · rw [if_neg hk]
      simp only []
      rw [file_para lang hL cfg _ hp _ hok _ hb, hpt, htext]
      rfl

end Go

/-! ## C -/

namespace C

/-- The headers included, in order. -/
def keys (l : List Import) : List (ItemStr × Bool) := setOf (l.map (fun i => (i.path, i.system)))

theorem lineBits_ok (m : ItemStr × Bool) : LineOk (lineBits m) := by
  obtain ⟨m, _ | _⟩ := m
  · exact ⟨rfl, ⟨_, _, rfl, rfl⟩, ⟨[word "#include", .space], .quoted m, rfl, rfl⟩⟩
  · exact ⟨rfl, ⟨_, _, rfl, rfl⟩, ⟨[word "#include", .space, word "<", .lit m], word ">", rfl, rfl⟩⟩

theorem lineBits_text (m : ItemStr × Bool) : lineText lang (lineBits m) = CFile.includeLine m.1.text m.2 := by
  obtain ⟨m, _ | _⟩ := m
  · have hl : ∃ r b, lineBits (m, false) = r ++ [b] ∧ b.shows = true :=
      ⟨[word "#include", .space], .quoted m, rfl, rfl⟩
    rw [lineText_of_last lang hl]
    simp only [CFile.includeLine, Bool.false_eq_true, if_false]
    rw [command_ne _ (stringLit_ne lang (delim_base _ _) _)]
    simp [bitsText, lineBits, bitText_quoted, bitText_space, bitText_word]
  · have hl : ∃ r b, lineBits (m, true) = r ++ [b] ∧ b.shows = true :=
      ⟨[word "#include", .space, word "<", .lit m], word ">", rfl, rfl⟩
    rw [lineText_of_last lang hl]
    simp only [CFile.includeLine, if_true]
    rw [command_ne _ (by simp)]
    simp [bitsText, lineBits, bitText_lit, bitText_space, bitText_word]

theorem file_eq (cfg : Config) (t : Tokens Import)
    (hb : losesSpace lang.langItem t.items = false) :
    toFileVec lang cfg (file t) = (toVec lang cfg t.items).map (fileLines
      ((keys t.walkImports).map (fun m => CFile.includeLine m.1.text m.2))) := by
  have hok : ∀ l ∈ (keys t.walkImports).map lineBits, LineOk l := by
    intro l hl
    obtain ⟨m, -, rfl⟩ := List.mem_map.1 hl
    exact lineBits_ok m
  have e : importCalls t.walkImports = if keys t.walkImports = [] then [] else
      (((keys t.walkImports).map lineBits).flatMap (fun l => bitItems l ++ [.push]) ++ [.line]) := by
    simp only [importCalls, keys, List.flatMap_map, List.isEmpty_iff]
  simp only [file, header, e]
  by_cases hk : keys t.walkImports = []
  · rw [if_pos hk, hk]
    exact file_none lang cfg _
  · rw [if_neg hk, file_after lang (delim_base _ _) cfg _ hok _ hb, List.map_map]
    congr 3
    funext m
    exact lineBits_text m

theorem includeLine_inj {p q : Str} {a b : Bool} (h : CFile.includeLine p a = CFile.includeLine q b) :
    p = q ∧ a = b := by
  have h := command_inj h
  cases a <;> cases b <;> simp only [if_true, Bool.false_eq_true, if_false] at h
  · exact ⟨(stringLit_c (r := []) (r' := []) (by simpa using h)).1, rfl⟩
  · simp [stringLit, lang, cLang, baseLang] at h
  · simp [stringLit, lang, cLang, baseLang] at h
  · simpa using h

end C

/-! ## Swift -/

namespace Swift

/-- The modules imported, in order. -/
def keys (l : List Import) : List ItemStr := setOf (l.map Import.module)

theorem file_eq (cfg : Config) (t : Tokens Import)
    (hb : losesSpace lang.langItem t.items = false) :
    toFileVec lang cfg (file t) = (toVec lang cfg t.items).map (fileLines
      ((keys t.walkImports).map (fun m => SwiftFile.importLine m.text))) := by
  have hok : ∀ l ∈ (keys t.walkImports).map (fun m => [word "import", .space, .lit m]), LineOk l := by
    intro l hl
    obtain ⟨m, -, rfl⟩ := List.mem_map.1 hl
    exact lineOk_command "import" m (by decide)
  have e : importCalls t.walkImports =
      (((keys t.walkImports).map (fun m => [word "import", .space, .lit m])).flatMap
        (fun l => .push :: bitItems l) ++ [.line]) := by
    simp only [importCalls, keys, List.flatMap_map]
  simp only [file, header, e]
  rw [file_before lang (delim_base _ _) cfg _ hok _ hb]
  simp only [List.map_map]
  congr 3
  funext m
  exact lineText_command lang "import" m (by decide)

end Swift

/-! ## Dart -/

namespace Dart

/-- The libraries imported, in order. -/
def keys (l : List Import) : List (ItemStr × Option ItemStr) :=
  setOf ((l.filter (fun i => i.path.text ≠ core)).map (fun i => (i.path, i.alias)))

theorem lineBits_ok (m : ItemStr × Option ItemStr) : LineOk (lineBits m) := by
  obtain ⟨m, _ | a⟩ := m
  · exact ⟨rfl, ⟨_, _, rfl, rfl⟩, ⟨[word "import", .space, .quoted m], word ";", rfl, rfl⟩⟩
  · exact ⟨rfl, ⟨_, _, rfl, rfl⟩,
      ⟨[word "import", .space, .quoted m, .space, word "as", .space, .lit a], word ";", rfl, rfl⟩⟩

theorem lineBits_text (m : ItemStr × Option ItemStr) :
    lineText lang (lineBits m) = DartFile.importLine m.1.text (m.2.map ItemStr.text) := by
  obtain ⟨m, _ | a⟩ := m
  · have hl : ∃ r b, lineBits (m, none) = r ++ [b] ∧ b.shows = true :=
      ⟨[word "import", .space, .quoted m], word ";", rfl, rfl⟩
    rw [lineText_of_last lang hl]
    rw [DartFile.importLine, command_ne _ (by simp)]
    simp [bitsText, lineBits, bitText_quoted, bitText_space, bitText_word, DartFile.asClause]
  · have hl : ∃ r b, lineBits (m, some a) = r ++ [b] ∧ b.shows = true :=
      ⟨[word "import", .space, .quoted m, .space, word "as", .space, .lit a], word ";", rfl, rfl⟩
    rw [lineText_of_last lang hl]
    rw [DartFile.importLine, command_ne _ (by simp)]
    simp [bitsText, lineBits, bitText_quoted, bitText_lit, bitText_space, bitText_word, DartFile.asClause]

theorem file_eq (cfg : Config) (t : Tokens Import)
    (hb : losesSpace lang.langItem t.items = false) :
    toFileVec lang cfg (file t) = (toVec lang cfg t.items).map (fileLines
      ((keys t.walkImports).map (fun m => DartFile.importLine m.1.text (m.2.map ItemStr.text)))) := by
  have hok : ∀ l ∈ (keys t.walkImports).map lineBits, LineOk l := by
    intro l hl
    obtain ⟨m, -, rfl⟩ := List.mem_map.1 hl
    exact lineBits_ok m
  have e : importCalls t.walkImports = if keys t.walkImports = [] then [] else
      (((keys t.walkImports).map lineBits).flatMap (fun l => bitItems l ++ [.push]) ++ [.line]) := by
    simp only [importCalls, keys, List.flatMap_map, List.isEmpty_iff]
  simp only [file, header, e]
  by_cases hk : keys t.walkImports = []
  · rw [if_pos hk, hk]
    exact file_none lang cfg _
  · rw [if_neg hk, file_after lang (delim_dart _) cfg _ hok _ hb, List.map_map]
    congr 3
    funext m
    exact lineBits_text m

theorem importLine_inj {p q : Str} {a b : Option Str}
    (h : DartFile.importLine p a = DartFile.importLine q b) : p = q ∧ a = b := by
  obtain ⟨h1, h2⟩ := stringLit_dart (command_inj h)
  refine ⟨h1, ?_⟩
  have h2 := List.append_cancel_right h2
  cases a <;> cases b <;> simp [DartFile.asClause] at h2 ⊢
  exact h2

theorem mem_keys (l : List Import) (p : ItemStr × Option ItemStr) :
    p ∈ keys l ↔ ∃ i ∈ l, i.path.text ≠ core ∧ (i.path, i.alias) = p := by
  simp [keys, and_assoc]

end Dart

end Genco
