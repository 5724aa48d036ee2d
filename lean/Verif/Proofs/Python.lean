import Verif.Proofs.Collect
import Verif.Proofs.Simple
import Verif.Spec.Python

/-!
# Import statements of Python
-/

set_option autoImplicit false

namespace Genco.Python

open Spec Spec.PythonFile

/-- What an import adds to the `from` statements. -/
def fromKey : Import → Option (ItemStr × (ItemStr × Option ItemStr))
  | .object (.unqualified p) n a => some (p, (n, a))
  | _ => none

/-- What an import adds to the `import` statements. -/
def impKey : Import → Option (ItemStr × Option ItemStr)
  | .object (.qualified p a) _ _ => some (p, a)
  | .module p a => some (p, a)
  | _ => none

theorem sets_eq (l : List Import) : (sets l).from_ = collect fromKey l ∧
    (sets l).imports = setOf (l.filterMap impKey) := by
  induction l using list_rec_right with
  | h0 => exact ⟨rfl, rfl⟩
  | h1 l i ih =>
    have e : sets (l ++ [i]) = addImport (sets l) i := by simp [sets]
    have e2 : collect fromKey (l ++ [i]) = match fromKey i with
        | some (k, x) => mapModify k [] (setInsert x) (collect fromKey l)
        | none => collect fromKey l := by
      simp only [collect, List.foldl_append, List.foldl_cons, List.foldl_nil]
      cases fromKey i <;> rfl
    rw [e, e2, List.filterMap_append]
    rcases i with ⟨p | ⟨p, a⟩, n, a'⟩ | ⟨p, a⟩
    · refine ⟨?_, ?_⟩
      · simp [addImport, ih.1, fromKey]
      · have : List.filterMap impKey [.object (.unqualified p) n a'] = [] := rfl
        rw [this, List.append_nil, ← ih.2]
        rfl
    · refine ⟨?_, ?_⟩
      · simp [addImport, ih.1, fromKey]
      · have : List.filterMap impKey [.object (.qualified p a) n a'] = [(p, a)] := rfl
        rw [this, setOf_concat, ← ih.2]
        rfl
    · refine ⟨?_, ?_⟩
      · simp [addImport, ih.1, fromKey]
      · have : List.filterMap impKey [.module p a] = [(p, a)] := rfl
        rw [this, setOf_concat, ← ih.2]
        rfl

theorem sets_congr {l l' : List Import} (h : ∀ i, i ∈ l ↔ i ∈ l') : sets l = sets l' := by
  obtain ⟨h1, h2⟩ := sets_eq l
  obtain ⟨h3, h4⟩ := sets_eq l'
  have e1 : (sets l).from_ = (sets l').from_ := by rw [h1, h3, collect_congr fromKey h]
  have e2 : (sets l).imports = (sets l').imports := by
    rw [h2, h4]
    exact setOf_congr (by intro x; simp only [List.mem_filterMap, h])
  cases hs : sets l; cases hs' : sets l'
  rw [hs, hs'] at e1 e2
  simp only at e1 e2
  rw [e1, e2]

/-! ## Lines -/

/-- The lines, before rendering. -/
def lines (l : List Import) : List (List Bit) :=
  (sets l).from_.map fromBits ++ (sets l).imports.map importBits

theorem spaced_name (n : ItemStr × Option ItemStr) (b : Bool) (rest : List Bit) :
    spaced b (nameBits n ++ rest) = spaced false rest := by
  obtain ⟨n, _ | a⟩ := n <;> simp [nameBits, spaced, word]

theorem nameBits_last (n : ItemStr × Option ItemStr) :
    ∃ r s, nameBits n = r ++ [.lit s] ∧ s = n.2.getD n.1 := by
  obtain ⟨n, _ | a⟩ := n
  · exact ⟨[], n, rfl, rfl⟩
  · exact ⟨[.lit n, .space, word "as", .space], a, rfl, rfl⟩

theorem spaced_join (ns : List (ItemStr × Option ItemStr)) (hne : ns ≠ []) (b : Bool) :
    spaced b (joinBits (ns.map nameBits)) = true := by
  induction ns generalizing b with
  | nil => exact absurd rfl hne
  | cons n ns ih =>
    cases ns with
    | nil =>
      have := spaced_name n b []
      simpa [joinBits, spaced] using this
    | cons m ns =>
      have e : joinBits ((n :: m :: ns).map nameBits) =
          nameBits n ++ (word "," :: .space :: joinBits ((m :: ns).map nameBits)) := by
        simp [joinBits]
      rw [e, spaced_name]
      exact ih (by simp) true

theorem join_last (ns : List (ItemStr × Option ItemStr)) (hne : ns ≠ []) :
    ∃ r s, joinBits (ns.map nameBits) = r ++ [.lit s] ∧ ∃ n ∈ ns, s = n.2.getD n.1 := by
  induction ns with
  | nil => exact absurd rfl hne
  | cons n ns ih =>
    cases ns with
    | nil =>
      obtain ⟨r, s, h, hs⟩ := nameBits_last n
      exact ⟨r, s, by simpa [joinBits] using h, n, by simp, hs⟩
    | cons m ns =>
      obtain ⟨r, s, h, k, hk, hs⟩ := ih (by simp)
      have e : joinBits ((n :: m :: ns).map nameBits) =
          nameBits n ++ (word "," :: .space :: joinBits ((m :: ns).map nameBits)) := by
        simp [joinBits]
      refine ⟨nameBits n ++ (word "," :: .space :: r), s, ?_, k, by simp [hk], hs⟩
      rw [e, h]
      simp

theorem from_ne {l : List Import} {e : ItemStr × List (ItemStr × Option ItemStr)}
    (h : e ∈ (sets l).from_) : e.2 ≠ [] := by
  rw [(sets_eq l).1] at h
  obtain ⟨k, s⟩ := e
  obtain ⟨h1, h2⟩ := (mem_collect fromKey l k s).1 h
  obtain ⟨x, hx⟩ := List.exists_mem_of_ne_nil _ h1
  intro hs
  have : x ∈ s := by rw [h2]; simpa using hx
  simp only at hs
  rw [hs] at this
  simp at this

theorem fromBits_ok (e : ItemStr × List (ItemStr × Option ItemStr)) (h : e.2 ≠ []) : LineOk (fromBits e) := by
  obtain ⟨r, s, hl, -⟩ := join_last e.2 h
  refine ⟨?_, ⟨_, _, rfl, rfl⟩, ⟨[word "from", .space, .lit e.1, .space, word "import", .space] ++ r,
    .lit s, ?_, rfl⟩⟩
  · exact spaced_join e.2 h true
  · rw [fromBits, hl, List.append_assoc]

theorem importBits_ok (e : ItemStr × Option ItemStr) : LineOk (importBits e) := by
  obtain ⟨r, s, hl, -⟩ := nameBits_last e
  refine ⟨?_, ⟨_, _, rfl, rfl⟩, ⟨[word "import", .space] ++ r, .lit s, ?_, rfl⟩⟩
  · have := spaced_name e true []
    simpa [importBits, spaced, word] using this
  · rw [importBits, hl, List.append_assoc]

theorem lines_ok (l : List Import) : ∀ b ∈ lines l, LineOk b := by
  intro b hb
  simp only [lines, List.mem_append, List.mem_map] at hb
  rcases hb with ⟨e, he, rfl⟩ | ⟨e, -, rfl⟩
  · exact fromBits_ok e (from_ne he)
  · exact importBits_ok e

theorem file_lines (cfg : Config) (t : Tokens Import) (hb : losesSpace lang.langItem t.items = false) :
    toFileVec lang cfg (file t) =
      (toVec lang cfg t.items).map (fileLines ((lines t.walkImports).map (lineText lang))) := by
  have e : importCalls t.walkImports = if lines t.walkImports = [] then [] else
      (lines t.walkImports).flatMap (fun l => .push :: bitItems l) ++ [.line] := by
    simp only [importCalls, lines, List.append_eq_nil_iff, List.map_eq_nil_iff, List.flatMap_append,
      List.flatMap_map, Bool.and_eq_true, List.isEmpty_iff]
  simp only [file, header, e]
  by_cases h : lines t.walkImports = []
  · rw [if_pos h, h]
    exact file_none lang cfg _
  · rw [if_neg h, file_before lang (delim_base _ _) cfg _ (lines_ok _) _ hb]

/-! ## Statements -/

def name' (n : ItemStr × Option ItemStr) : Str × Option Str := (n.1.text, n.2.map ItemStr.text)

/-- The statements. -/
def stmts (l : List Import) : List Stmt :=
  (sets l).from_.map (fun e => .from_ e.1.text (e.2.map name')) ++
  (sets l).imports.map (fun e => .import_ e.1.text (e.2.map ItemStr.text))

theorem nameBits_text {ι : Type} (L : Lang ι) (n : ItemStr × Option ItemStr) :
    bitsText L (nameBits n) = asText (name' n).1 (name' n).2 := by
  obtain ⟨n, _ | a⟩ := n <;>
    simp [bitsText, nameBits, bitText_lit, bitText_space, bitText_word, asText, name']

theorem bitsText_append {ι : Type} (L : Lang ι) (a b : List Bit) :
    bitsText L (a ++ b) = bitsText L a ++ bitsText L b := by simp [bitsText]

theorem join_text {ι : Type} (L : Lang ι) (ns : List (ItemStr × Option ItemStr)) :
    bitsText L (joinBits (ns.map nameBits)) =
      ", ".toList.intercalate ((ns.map name').map (fun n => asText n.1 n.2)) := by
  induction ns with
  | nil => rfl
  | cons n ns ih =>
    cases ns with
    | nil =>
      simp only [List.map_cons, List.map_nil, joinBits, nameBits_text]
      simp [List.intercalate]
    | cons m ns =>
      have e : joinBits ((n :: m :: ns).map nameBits) =
          nameBits n ++ ([word ",", .space] ++ joinBits ((m :: ns).map nameBits)) := by
        simp [joinBits]
      rw [e, bitsText_append, bitsText_append, ih, nameBits_text]
      simp [List.intercalate, bitsText, bitText_space, bitText_word, List.intersperse_cons_cons]

theorem mem_from {l : List Import} {e : ItemStr × List (ItemStr × Option ItemStr)}
    (he : e ∈ (sets l).from_) (n : ItemStr × Option ItemStr) :
    n ∈ e.2 ↔ Import.object (.unqualified e.1) n.1 n.2 ∈ l := by
  rw [(sets_eq l).1] at he
  obtain ⟨k, s⟩ := e
  obtain ⟨-, rfl⟩ := (mem_collect fromKey l k s).1 he
  simp only [mem_setOf, mem_select]
  constructor
  · rintro ⟨i, hi, h⟩
    rcases i with ⟨p | ⟨p, a⟩, x, a'⟩ | ⟨p, a⟩ <;> simp only [fromKey, Option.some.injEq, reduceCtorEq] at h
    simp only [Prod.mk.injEq] at h
    obtain ⟨rfl, rfl⟩ := h
    exact hi
  · intro h
    exact ⟨_, h, rfl⟩

/-- There is a `from` statement for every plain import. -/
theorem exists_from {l : List Import} {p n : ItemStr} {a : Option ItemStr}
    (h : Import.object (.unqualified p) n a ∈ l) : ∃ e ∈ (sets l).from_, e.1 = p ∧ (n, a) ∈ e.2 := by
  rw [(sets_eq l).1]
  have hm : (n, a) ∈ select fromKey p l := (mem_select ..).2 ⟨_, h, rfl⟩
  refine ⟨(p, _), (mem_collect ..).2 ⟨List.ne_nil_of_mem hm, rfl⟩, rfl, ?_⟩
  simpa using hm

theorem mem_imports (l : List Import) (e : ItemStr × Option ItemStr) :
    e ∈ (sets l).imports ↔ (∃ n a, Import.object (.qualified e.1 e.2) n a ∈ l) ∨ .module e.1 e.2 ∈ l := by
  rw [(sets_eq l).2, mem_setOf, List.mem_filterMap]
  constructor
  · rintro ⟨i, hi, h⟩
    rcases i with ⟨p | ⟨p, a⟩, x, a'⟩ | ⟨p, a⟩ <;> simp only [impKey, Option.some.injEq, reduceCtorEq] at h
    · subst h; exact .inl ⟨x, a', hi⟩
    · subst h; exact .inr hi
  · rintro (⟨n, a, h⟩ | h)
    · exact ⟨_, h, rfl⟩
    · exact ⟨_, h, rfl⟩

theorem fromBits_text {ι : Type} (L : Lang ι) (e : ItemStr × List (ItemStr × Option ItemStr)) :
    bitsText L (fromBits e) = (Stmt.from_ e.1.text (e.2.map name')).text := by
  have h : bitsText L [word "from", .space, .lit e.1, .space, word "import", .space] =
      "from ".toList ++ e.1.text ++ " import ".toList := by
    simp [bitsText, bitText_lit, bitText_space, bitText_word]
  unfold fromBits Stmt.text
  rw [bitsText_append, join_text, h]

theorem importBits_text {ι : Type} (L : Lang ι) (e : ItemStr × Option ItemStr) :
    bitsText L (importBits e) = (Stmt.import_ e.1.text (e.2.map ItemStr.text)).text := by
  have h : bitsText L [word "import", .space] = "import ".toList := by
    simp [bitsText, bitText_space, bitText_word]
  unfold importBits Stmt.text
  rw [bitsText_append, nameBits_text, h]
  rfl

theorem lines_text (l : List Import) (hp : ∀ i ∈ l, Proper i) :
    (lines l).map (lineText lang) = (stmts l).map Stmt.text := by
  simp only [lines, stmts, List.map_append, List.map_map]
  refine congrArg₂ (· ++ ·) ?_ ?_
  · refine List.map_congr_left (fun e he => ?_)
    have hne := from_ne he
    obtain ⟨r, s, hl, n, hn, hs⟩ := join_last e.2 hne
    have hi := hp _ ((mem_from he n).1 hn)
    have hs' : s.text ≠ [] := by
      rw [hs]
      cases ha : n.2 with
      | none => exact (hi.2 n.1 (by simp [names])).1
      | some a => exact (hi.2 a (by simp [names, ha])).1
    have hlast : ∃ r b, fromBits e = r ++ [b] ∧ b.shows = true :=
      ⟨[word "from", .space, .lit e.1, .space, word "import", .space] ++ r, .lit s,
        by rw [fromBits, hl, List.append_assoc], by simp [Bit.shows, hs']⟩
    exact (lineText_of_last lang hlast).trans (fromBits_text lang e)
  · refine List.map_congr_left (fun e he => ?_)
    obtain ⟨r, s, hl, hs⟩ := nameBits_last e
    have hs' : s.text ≠ [] := by
      rw [hs]
      cases ha : e.2 with
      | none =>
        rcases (mem_imports l e).1 he with ⟨n, a, h⟩ | h
        · exact (hp _ h).1
        · exact (hp _ h).1
      | some b =>
        rcases (mem_imports l e).1 he with ⟨n, a, h⟩ | h
        · exact ((hp _ h).2 b (by simp [names, ha])).1
        · exact ((hp _ h).2 b (by simp [names, ha])).1
    have hlast : ∃ r b, importBits e = r ++ [b] ∧ b.shows = true :=
      ⟨[word "import", .space] ++ r, .lit s, by rw [importBits, hl, List.append_assoc],
        by simp [Bit.shows, hs']⟩
    exact (lineText_of_last lang hlast).trans (importBits_text lang e)

/-! ## Resolution -/

theorem bound_iff (l : List Import) (n f : Str) : Bound (stmts l) n f ↔ ∃ i ∈ l, Claims i n f := by
  have getD_text : ∀ (a : Option ItemStr) (x : ItemStr), (a.map ItemStr.text).getD x.text = (a.getD x).text := by
    intro a x; cases a <;> rfl
  constructor
  · rintro ⟨s, hs, hb⟩
    simp only [stmts, List.mem_append, List.mem_map] at hs
    rcases hs with ⟨e, he, rfl⟩ | ⟨e, he, rfl⟩
    · obtain ⟨x, hx, rfl, rfl⟩ := hb
      obtain ⟨y, hy, rfl⟩ := List.mem_map.1 hx
      exact ⟨_, (mem_from he y).1 hy, by simp [Claims, name', getD_text]⟩
    · obtain ⟨p, a⟩ := e
      rcases (mem_imports l _).1 he with ⟨x, a', h⟩ | h
      · refine ⟨_, h, ?_⟩
        cases a <;> exact hb
      · refine ⟨_, h, ?_⟩
        cases a <;> exact hb
  · rintro ⟨i, hi, hc⟩
    rcases i with ⟨p | ⟨p, a⟩, x, a'⟩ | ⟨p, a⟩
    · obtain ⟨rfl, rfl⟩ := hc
      obtain ⟨e, he, rfl, hm⟩ := exists_from hi
      refine ⟨.from_ e.1.text (e.2.map name'), ?_, name' (x, a'), List.mem_map.2 ⟨_, hm, rfl⟩, ?_, rfl⟩
      · simp only [stmts, List.mem_append, List.mem_map]
        exact .inl ⟨e, he, rfl⟩
      · simp [name', getD_text]
    · refine ⟨.import_ p.text (a.map ItemStr.text), ?_, ?_⟩
      · simp only [stmts, List.mem_append, List.mem_map]
        exact .inr ⟨(p, a), (mem_imports ..).2 (.inl ⟨x, a', hi⟩), rfl⟩
      · cases a <;> exact hc
    · refine ⟨.import_ p.text (a.map ItemStr.text), ?_, ?_⟩
      · simp only [stmts, List.mem_append, List.mem_map]
        exact .inr ⟨(p, a), (mem_imports ..).2 (.inr hi), rfl⟩
      · cases a <;> exact hc

theorem firstPart_exists (c : Char) (p : Str) : ∃ s rest, FirstPart c p s ∧ p = s ++ rest ∧
    (rest = [] ∨ ∃ r, rest = c :: r) := by
  induction p with
  | nil => exact ⟨[], [], ⟨by simp, .inl rfl⟩, rfl, .inl rfl⟩
  | cons a p ih =>
    by_cases h : a = c
    · subst h
      exact ⟨[], a :: p, ⟨by simp, .inr ⟨p, rfl⟩⟩, rfl, .inr ⟨p, rfl⟩⟩
    · obtain ⟨s, rest, ⟨h1, h2⟩, rfl, h3⟩ := ih
      refine ⟨a :: s, rest, ⟨by simp [h1, Ne.symm h], ?_⟩, rfl, h3⟩
      rcases h3 with rfl | ⟨r, rfl⟩
      · exact .inl (by simp)
      · exact .inr ⟨r, rfl⟩

/-- The module of an import is loaded. -/
theorem loaded {l : List Import} {i : Import} (hi : i ∈ l) : ∃ s ∈ stmts l, s.module = moduleOf i := by
  rcases i with ⟨p | ⟨p, a⟩, x, a'⟩ | ⟨p, a⟩
  · obtain ⟨e, he, rfl, -⟩ := exists_from hi
    refine ⟨.from_ e.1.text (e.2.map name'), ?_, rfl⟩
    simp only [stmts, List.mem_append, List.mem_map]
    exact .inl ⟨e, he, rfl⟩
  · refine ⟨.import_ p.text (a.map ItemStr.text), ?_, rfl⟩
    simp only [stmts, List.mem_append, List.mem_map]
    exact .inr ⟨(p, a), (mem_imports ..).2 (.inl ⟨x, a', hi⟩), rfl⟩
  · refine ⟨.import_ p.text (a.map ItemStr.text), ?_, rfl⟩
    simp only [stmts, List.mem_append, List.mem_map]
    exact .inr ⟨(p, a), (mem_imports ..).2 (.inr hi), rfl⟩

theorem firstPart_unique {c : Char} {p s s' : Str} (h : FirstPart c p s) (h' : FirstPart c p s') : s = s' := by
  obtain ⟨h1, h⟩ := h
  obtain ⟨h1', h'⟩ := h'
  induction s generalizing p s' with
  | nil =>
    cases s' with
    | nil => rfl
    | cons d s' =>
      have hp : p = [] ∨ ∃ q, p = c :: q := by simpa using h
      rcases hp with rfl | ⟨q, rfl⟩
      · simp at h'
      · simp only [List.cons_append, List.cons.injEq] at h'
        have : c = d := by rcases h' with h' | ⟨_, h', -⟩ <;> [exact h'.1; exact h']
        simp [this] at h1'
  | cons a s ih =>
    cases s' with
    | nil =>
      have hp : p = [] ∨ ∃ q, p = c :: q := by simpa using h'
      rcases hp with rfl | ⟨q, rfl⟩
      · simp at h
      · simp only [List.cons_append, List.cons.injEq] at h
        have : c = a := by rcases h with h | ⟨_, h, -⟩ <;> [exact h.1; exact h]
        simp [this] at h1
    | cons d s' =>
      cases p with
      | nil => simp at h
      | cons x p =>
        simp only [List.cons_append, List.cons.injEq] at h h'
        have hx : x = a ∧ (p = s ∨ ∃ q, p = s ++ c :: q) := by
          rcases h with h | ⟨q, h⟩
          · exact ⟨h.1, .inl h.2⟩
          · exact ⟨h.1, .inr ⟨q, h.2⟩⟩
        have hx' : x = d ∧ (p = s' ∨ ∃ q, p = s' ++ c :: q) := by
          rcases h' with h | ⟨q, h⟩
          · exact ⟨h.1, .inl h.2⟩
          · exact ⟨h.1, .inr ⟨q, h.2⟩⟩
        rw [← hx.1, ← hx'.1]
        rw [ih (fun m => h1 (by simp [m])) hx.2 (fun m => h1' (by simp [m])) hx'.2]

/-- How a reference begins, and when it says what it should. -/
theorem shape (i : Import) (hp : Proper i) : ∃ s rest f, i.format.flatten = s ++ rest ∧ '.' ∉ s ∧
    (rest = [] ∨ ∃ r, rest = '.' :: r) ∧ (∀ n f', Claims i n f' ↔ n = s ∧ f' = f) ∧
    (target i = f ++ rest ↔ Usual i) := by
  have dot : ∀ x ∈ names i, '.' ∉ x.text := fun x hx => (hp.2 x hx).2
  have first : ∀ {p s : Str}, FirstPart '.' p s → ∀ n f', (FirstPart '.' p n ∧ f' = n) ↔ n = s ∧ f' = s := by
    intro p s h n f'
    constructor
    · rintro ⟨h', rfl⟩
      have := firstPart_unique h' h
      exact ⟨this, this⟩
    · rintro ⟨rfl, rfl⟩
      exact ⟨h, rfl⟩
  rcases i with ⟨p | ⟨p, _ | b⟩, x, a⟩ | ⟨p, _ | b⟩
  · refine ⟨(a.getD x).text, [], p.text ++ '.' :: x.text, by simp [Import.format], ?_, .inl rfl,
      fun _ _ => Iff.rfl, by simp [target, Usual]⟩
    cases a with
    | none => exact dot x (by simp [names])
    | some b => exact dot b (by simp [names])
  · obtain ⟨s, rest, h1, h2, h3⟩ := firstPart_exists '.' p.text
    refine ⟨s, rest ++ '.' :: (a.getD x).text, s, ?_, h1.1, ?_, first h1, ?_⟩
    · simp [Import.format, h2]
    · rcases h3 with rfl | ⟨r, rfl⟩
      · exact .inr ⟨_, rfl⟩
      · exact .inr ⟨r ++ '.' :: (a.getD x).text, rfl⟩
    · show p.text ++ '.' :: x.text = _ ↔ ∀ b ∈ a, b.text = x.text
      rw [h2]
      cases a with
      | none => simp
      | some b => simp [eq_comm]
  · refine ⟨b.text, '.' :: (a.getD x).text, p.text, by simp [Import.format], dot b (by simp [names]),
      .inr ⟨_, rfl⟩, fun _ _ => Iff.rfl, ?_⟩
    show p.text ++ '.' :: x.text = _ ↔ ∀ b ∈ a, b.text = x.text
    cases a with
    | none => simp
    | some b => simp [eq_comm]
  · obtain ⟨s, rest, h1, h2, h3⟩ := firstPart_exists '.' p.text
    exact ⟨s, rest, s, by simp [Import.format, h2], h1.1, h3, first h1, by simp [target, h2, Usual]⟩
  · exact ⟨b.text, [], p.text, by simp [Import.format], dot b (by simp [names]),
      .inl rfl, fun _ _ => Iff.rfl, by simp [target, Usual]⟩

theorem resolves_iff (l : List Import) (i : Import) (hi : i ∈ l) (hp : Proper i) :
    Resolves (stmts l) i.format.flatten (moduleOf i) (target i) ↔
      Usual i ∧ ∀ j ∈ l, ∀ n f f', Claims i n f → Claims j n f' → f = f' := by
  obtain ⟨s, rest, f, h1, h2, h3, h4, h5⟩ := shape i hp
  have hcl : Claims i s f := (h4 s f).2 ⟨rfl, rfl⟩
  constructor
  · rintro ⟨⟨seg, rest', p, e, hd, hr, hb, ht, hu⟩, -⟩
    have hfp : ∀ {a b : Str}, '.' ∉ a → (b = [] ∨ ∃ r, b = '.' :: r) → FirstPart '.' (a ++ b) a := by
      rintro a b ha (rfl | ⟨r, rfl⟩)
      · exact ⟨ha, .inl (by simp)⟩
      · exact ⟨ha, .inr ⟨r, rfl⟩⟩
    have hseg : seg = s := by
      refine firstPart_unique (hfp hd hr) ?_
      rw [← e, h1]
      exact hfp h2 h3
    subst hseg
    have hrest : rest' = rest := List.append_cancel_left (e.symm.trans h1)
    subst hrest
    have hpf : f = p := hu f ((bound_iff l _ f).2 ⟨i, hi, hcl⟩)
    subst hpf
    refine ⟨h5.1 ht, fun j hj n g g' hg hg' => ?_⟩
    obtain ⟨rfl, rfl⟩ := (h4 n g).1 hg
    exact (hu g' ((bound_iff l _ g').2 ⟨j, hj, hg'⟩)).symm
  · rintro ⟨hu, hc⟩
    refine ⟨⟨s, rest, f, h1, h2, h3, (bound_iff l _ _).2 ⟨i, hi, hcl⟩, h5.2 hu, fun p' hb => ?_⟩, loaded hi⟩
    obtain ⟨j, hj, h'⟩ := (bound_iff l _ _).1 hb
    exact (hc j hj _ _ _ hcl h').symm

/-! ## Lines differ -/

theorem cut_space {a b r r' : Str} (ha : ' ' ∉ a) (hb : ' ' ∉ b) (h : a ++ ' ' :: r = b ++ ' ' :: r') :
    a = b ∧ r = r' := by
  induction a generalizing b with
  | nil =>
    cases b with
    | nil => exact ⟨rfl, by simpa using h⟩
    | cons c b =>
      simp only [List.nil_append, List.cons_append, List.cons.injEq] at h
      simp [← h.1] at hb
  | cons c a ih =>
    cases b with
    | nil =>
      simp only [List.nil_append, List.cons_append, List.cons.injEq] at h
      simp [h.1] at ha
    | cons d b =>
      simp only [List.cons_append, List.cons.injEq] at h
      obtain ⟨h1, h2⟩ := ih (fun x => ha (by simp [x])) (fun x => hb (by simp [x])) h.2
      exact ⟨by rw [h.1, h1], h2⟩

theorem from_inj {m m' : Str} {ns ns' : List (Str × Option Str)} (hm : ' ' ∉ m) (hm' : ' ' ∉ m')
    (h : (Stmt.from_ m ns).text = (Stmt.from_ m' ns').text) : m = m' := by
  have e : " import ".toList = ' ' :: "import ".toList := by decide
  unfold Stmt.text at h
  dsimp only at h
  rw [List.append_assoc, List.append_assoc, List.append_assoc, List.append_assoc] at h
  have h := List.append_cancel_left h
  rw [e, List.cons_append, List.cons_append] at h
  exact (cut_space hm hm' h).1

theorem import_inj {m m' : Str} {a a' : Option Str} (hm : ' ' ∉ m) (hm' : ' ' ∉ m')
    (h : (Stmt.import_ m a).text = (Stmt.import_ m' a').text) : m = m' ∧ a = a' := by
  have e : " as ".toList = ' ' :: "as ".toList := by decide
  unfold Stmt.text at h
  dsimp only at h
  have h := List.append_cancel_left h
  rcases a with _ | a <;> rcases a' with _ | a' <;>
    simp only [asText, List.append_assoc, e, List.cons_append] at h
  · exact ⟨h, rfl⟩
  · exact absurd (by rw [h]; simp) hm
  · exact absurd (by rw [← h]; simp) hm'
  · obtain ⟨h1, h2⟩ := cut_space hm hm' h
    exact ⟨h1, by rw [List.append_cancel_left h2]⟩

theorem from_ne_import {m m' : Str} {ns : List (Str × Option Str)} {a : Option Str}
    (h : (Stmt.from_ m ns).text = (Stmt.import_ m' a).text) : False := by
  have e : "from ".toList = 'f' :: "rom ".toList := by decide
  have e' : "import ".toList = 'i' :: "mport ".toList := by decide
  unfold Stmt.text at h
  dsimp only at h
  rw [e, e'] at h
  simp only [List.cons_append, List.cons.injEq] at h
  exact absurd h.1 (by decide)

theorem keys_inj {α β : Type} [Ord α] [Std.LawfulEqOrd α] {l : List (α × β)}
    (h : Increasing (l.map (·.1))) {a b : α × β} (ha : a ∈ l) (hb : b ∈ l) (hab : a.1 = b.1) : a = b := by
  have hn : (l.map (·.1)).Nodup := Increasing.nodup h
  clear h
  induction l with
  | nil => simp at ha
  | cons c l ih =>
    simp only [List.map_cons, List.nodup_cons, List.mem_map, not_exists, not_and] at hn
    rcases List.mem_cons.1 ha with rfl | ha' <;> rcases List.mem_cons.1 hb with rfl | hb'
    · rfl
    · exact absurd hab.symm (hn.1 b hb')
    · exact absurd hab (hn.1 a ha')
    · exact ih ha' hb' hn.2

end Genco.Python
