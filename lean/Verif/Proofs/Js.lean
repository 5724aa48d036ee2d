import Verif.Proofs.Collect
import Verif.Proofs.Simple
import Verif.Proofs.Python
import Verif.Proofs.Inject
import Verif.Spec.Js

/-!
# Import declarations of JavaScript
-/

set_option autoImplicit false

namespace Genco.Js

open Spec Spec.JsFile Std

/-! ## Orders -/

def Component.key : Component → Nat × Str
  | .curDir => (0, [])
  | .parentDir => (1, [])
  | .normal s => (2, s)

theorem Component.compare_key (a b : Component) : compare a b = compare a.key b.key := by
  have hp : ∀ (x y : Nat × Str), compare x y = (compare x.1 y.1).then (compare x.2 y.2) :=
    fun _ _ => rfl
  rw [hp]
  cases a <;> cases b <;> rfl

instance : TransOrd Component := transOrd_of_key Component.key Component.compare_key
instance : LawfulEqOrd Component :=
  lawfulEqOrd_of_key Component.key (by intro a b; cases a <;> cases b <;> simp [Component.key])
    Component.compare_key

def Mod.key : Mod → Bool × (List Component × ItemStr)
  | .path p => (false, (p, .box []))
  | .global s => (true, ([], s))

theorem Mod.compare_key (a b : Mod) : compare a b = compare a.key b.key := by
  have hp : ∀ (x y : Bool × (List Component × ItemStr)),
      compare x y = (compare x.1 y.1).then ((compare x.2.1 y.2.1).then (compare x.2.2 y.2.2)) :=
    fun _ _ => rfl
  rw [hp]
  cases a with
  | path p =>
    cases b with
    | path q =>
      show compare p q = ((compare p q).then (compare (ItemStr.box []) (ItemStr.box [])))
      rw [cmp_self (ItemStr.box [])]
      cases compare p q <;> rfl
    | global s => rfl
  | global s =>
    cases b <;> rfl

instance : TransOrd Mod := transOrd_of_key Mod.key Mod.compare_key
instance : LawfulEqOrd Mod :=
  lawfulEqOrd_of_key Mod.key (by intro a b; cases a <;> cases b <;> simp [Mod.key]) Mod.compare_key

def Element.key : Element → Bool × (ItemStr × ItemStr)
  | .plain n => (false, (n, .box []))
  | .aliased n a => (true, (n, a))

theorem Element.compare_key (a b : Element) : compare a b = compare a.key b.key := by
  have hp : ∀ (x y : Bool × (ItemStr × ItemStr)),
      compare x y = (compare x.1 y.1).then ((compare x.2.1 y.2.1).then (compare x.2.2 y.2.2)) :=
    fun _ _ => rfl
  rw [hp]
  cases a with
  | plain p =>
    cases b with
    | plain q =>
      show compare p q = ((compare p q).then (compare (ItemStr.box []) (ItemStr.box [])))
      rw [cmp_self (ItemStr.box [])]
      cases compare p q <;> rfl
    | aliased n a => rfl
  | aliased n a =>
    cases b <;> rfl

instance : TransOrd Element := transOrd_of_key Element.key Element.compare_key
instance : LawfulEqOrd Element :=
  lawfulEqOrd_of_key Element.key (by intro a b; cases a <;> cases b <;> simp [Element.key])
    Element.compare_key

/-! ## The loop -/

def elOf (i : Import) : Element :=
  match i.alias with
  | none => .plain i.name
  | some a => .aliased i.name a

/-- The elements of a module. -/
def elems (m : Mod) (l : List Import) : List Element :=
  l.filterMap (fun i => if i.kind = .named ∧ i.module = m then some (elOf i) else none)

/-- The default name of a module: the one seen last. -/
def defaultOf (m : Mod) (l : List Import) : Option ItemStr :=
  (l.reverse.find? (fun i => i.kind = .default ∧ i.module = m)).map (·.name)

def used (m : Mod) (l : List Import) : Bool := l.any (fun i => i.kind ≠ .wildcard ∧ i.module = m)

def wild (i : Import) : Option (Mod × ItemStr) :=
  if i.kind = .wildcard then some (i.module, i.name) else none

structure SetsOk (l : List Import) (s : Sets) : Prop where
  keys : KeysIncreasing s.modules
  get : ∀ m, mapGet m s.modules = if used m l then some ⟨defaultOf m l, setOf (elems m l)⟩ else none
  wild : s.wildcards = setOf (l.filterMap wild)

theorem not_used {m : Mod} {l : List Import} (h : used m l = false) :
    elems m l = [] ∧ defaultOf m l = none := by
  simp only [used, List.any_eq_false, decide_eq_true_eq, not_and] at h
  constructor
  · simp only [elems, List.filterMap_eq_nil_iff]
    intro i hi
    rw [if_neg]
    rintro ⟨h1, h2⟩
    exact h i hi (by rw [h1]; decide) h2
  · simp only [defaultOf, Option.map_eq_none_iff, List.find?_eq_none, List.mem_reverse, decide_eq_true_eq]
    rintro i hi ⟨h1, h2⟩
    exact h i hi (by rw [h1]; decide) h2

theorem sets_ok (l : List Import) : SetsOk l (sets l) := by
  induction l using list_rec_right with
  | h0 => exact ⟨List.Pairwise.nil, fun m => rfl, rfl⟩
  | h1 l i ih =>
    have e : sets (l ++ [i]) = addImport (sets l) i := by simp [sets]
    rw [e]
    have hu : ∀ m, used m (l ++ [i]) = (used m l || decide (i.kind ≠ .wildcard ∧ i.module = m)) := by
      intro m; simp [used]
    have hel : ∀ m, elems m (l ++ [i]) = elems m l ++
        (if i.kind = .named ∧ i.module = m then [elOf i] else []) := by
      intro m
      simp only [elems, List.filterMap_append]
      by_cases h : i.kind = .named ∧ i.module = m <;> simp [h]
    have hd : ∀ m, defaultOf m (l ++ [i]) =
        if i.kind = .default ∧ i.module = m then some i.name else defaultOf m l := by
      intro m
      simp only [defaultOf, List.reverse_append, List.reverse_cons, List.reverse_nil, List.nil_append,
        List.singleton_append, List.find?_cons]
      by_cases h : i.kind = .default ∧ i.module = m <;> simp [h]
    have hw : (l ++ [i]).filterMap wild = l.filterMap wild ++ (wild i).toList := by
      rw [List.filterMap_append]
      cases h : wild i <;> simp [h]
    have hget : ∀ m, (mapGet m (sets l).modules).getD ⟨none, []⟩ = ⟨defaultOf m l, setOf (elems m l)⟩ := by
      intro m
      rw [ih.get]
      cases h : used m l with
      | true => rfl
      | false => rw [(not_used h).1, (not_used h).2]; rfl
    obtain ⟨kind, module, name, al⟩ := i
    cases kind with
    | named =>
      refine ⟨keysIncreasing_mapModify _ _ _ _ ih.keys, ?_, ?_⟩
      · intro m
        simp only [addImport]
        rw [mapGet_mapModify _ _ _ _ _ ih.keys, hget, hu, hel, hd, ih.get]
        by_cases hm : m = module
        · subst hm
          cases al <;> simp [setOf_concat, elOf]
        · have hm' : module ≠ m := fun h => hm h.symm
          simp [hm, hm']
      · rw [hw]
        simp [addImport, ih.wild, wild]
    | default =>
      refine ⟨keysIncreasing_mapModify _ _ _ _ ih.keys, ?_, ?_⟩
      · intro m
        simp only [addImport]
        rw [mapGet_mapModify _ _ _ _ _ ih.keys, hget, hu, hel, hd, ih.get]
        by_cases hm : m = module
        · subst hm
          simp
        · have hm' : module ≠ m := fun h => hm h.symm
          simp [hm, hm']
      · rw [hw]
        simp [addImport, ih.wild, wild]
    | wildcard =>
      refine ⟨ih.keys, ?_, ?_⟩
      · intro m
        simp only [addImport]
        rw [hu, hel, hd, ih.get]
        simp
      · rw [hw]
        simp [addImport, ih.wild, wild, setOf_concat]

/-! ## Lines -/

/-- The lines, before rendering. -/
def lines (rel : List Component → Str) (l : List Import) : List (List Bit) :=
  (sets l).wildcards.map (wildcardBits rel) ++ (sets l).modules.map (moduleBits rel)

theorem spaced_el (e : Element) (b : Bool) (rest : List Bit) :
    spaced b (e.bits ++ rest) = spaced false rest := by
  cases e <;> simp [Element.bits, spaced, word]

theorem spaced_elements (es : List Element) (hne : es ≠ []) (b : Bool) (rest : List Bit) :
    spaced b (elementsBits es ++ rest) = spaced false rest := by
  induction es generalizing b with
  | nil => exact absurd rfl hne
  | cons e es ih =>
    cases es with
    | nil => rw [elementsBits, spaced_el]
    | cons f es =>
      have e1 : elementsBits (e :: f :: es) ++ rest =
          e.bits ++ (boxed "," :: .space :: (elementsBits (f :: es) ++ rest)) := by
        simp [elementsBits]
      rw [e1, spaced_el]
      exact ih (by simp) true

theorem module_ne {l : List Import} {e : Mod × Resolved} (h : e ∈ (sets l).modules) :
    e.2.defaultImport ≠ none ∨ e.2.set ≠ [] := by
  have hs := sets_ok l
  obtain ⟨m, r⟩ := e
  have hg := mapGet_of_mem hs.keys h
  rw [hs.get] at hg
  split at hg
  · rename_i hu
    simp only [Option.some.injEq] at hg
    subst hg
    simp only [used, List.any_eq_true, decide_eq_true_eq] at hu
    obtain ⟨i, hi, hk, hm⟩ := hu
    cases hkind : i.kind with
    | wildcard => exact absurd hkind hk
    | default =>
      left
      simp only [defaultOf, ne_eq, Option.map_eq_none_iff, List.find?_eq_none, List.mem_reverse,
        decide_eq_true_eq]
      exact fun hn => hn i hi ⟨hkind, hm⟩
    | named =>
      right
      intro hn
      have : elOf i ∈ setOf (elems m l) := by
        rw [mem_setOf, elems, List.mem_filterMap]
        exact ⟨i, hi, by simp [hkind, hm]⟩
      simp only at hn
      rw [hn] at this
      simp at this
  · simp at hg

theorem wildcardBits_ok (rel : List Component → Str) (e : Mod × ItemStr) : LineOk (wildcardBits rel e) :=
  ⟨rfl, ⟨_, _, rfl, rfl⟩, ⟨[word "import", .space, word "*", .space, word "as", .space, .lit e.2, .space,
    word "from", .space, .quoted (fromText rel e.1)], _, rfl, rfl⟩⟩

/-- What stands between `import` and `from`. -/
def clauseBits (r : Resolved) : List Bit :=
  (match r.defaultImport with
    | some d => .lit d :: (if r.set.isEmpty then [] else [boxed ",", .space])
    | none => []) ++
  (if r.set.isEmpty then [] else [boxed "{"] ++ elementsBits r.set ++ [boxed "}"])

theorem moduleBits_eq (rel : List Component → Str) (e : Mod × Resolved) :
    moduleBits rel e = [word "import", .space] ++ (clauseBits e.2 ++
      [.space, word "from", .space, .quoted (fromText rel e.1), word ";"]) := by
  simp only [moduleBits, clauseBits, List.append_assoc]
  cases e.2.defaultImport <;> rfl

theorem spaced_clause (r : Resolved) (h : r.defaultImport ≠ none ∨ r.set ≠ []) (b : Bool) (rest : List Bit) :
    spaced b (clauseBits r ++ rest) = spaced false rest := by
  obtain ⟨d, s⟩ := r
  cases s with
  | nil =>
    cases d with
    | none => simp at h
    | some d => simp [clauseBits, spaced]
  | cons x s =>
    have hs : ∀ b, spaced b ([boxed "{"] ++ elementsBits (x :: s) ++ [boxed "}"] ++ rest) = spaced false rest := by
      intro b
      have := spaced_elements (x :: s) (by simp) false (boxed "}" :: rest)
      simp only [List.append_assoc, List.cons_append, List.nil_append]
      have e : ∀ (b : Bool) (r : List Bit), spaced b (boxed "{" :: r) = spaced false r := fun _ _ => rfl
      rw [e, this]
      rfl
    cases d with
    | none =>
      have := hs b
      simpa [clauseBits] using this
    | some d =>
      have := hs true
      simp only [clauseBits, List.isEmpty_cons, Bool.false_eq_true, if_false]
      simpa [spaced, boxed] using this

theorem moduleBits_ok (rel : List Component → Str) (e : Mod × Resolved)
    (h : e.2.defaultImport ≠ none ∨ e.2.set ≠ []) : LineOk (moduleBits rel e) := by
  rw [moduleBits_eq]
  refine ⟨?_, ⟨_, _, rfl, rfl⟩, ⟨[word "import", .space] ++ (clauseBits e.2 ++
      [.space, word "from", .space, .quoted (fromText rel e.1)]), word ";", by simp, rfl⟩⟩
  exact spaced_clause e.2 h true _

theorem lines_ok (rel : List Component → Str) (l : List Import) : ∀ b ∈ lines rel l, LineOk b := by
  intro b hb
  simp only [lines, List.mem_append, List.mem_map] at hb
  rcases hb with ⟨e, he, rfl⟩ | ⟨e, he, rfl⟩
  · exact wildcardBits_ok rel e
  · exact moduleBits_ok rel e (module_ne he)

theorem file_lines (rel : List Component → Str) (cfg : Config) (t : Tokens Import)
    (hb : losesSpace lang.langItem t.items = false) :
    toFileVec lang cfg (file rel t) =
      (toVec lang cfg t.items).map (fileLines ((lines rel t.walkImports).map (lineText lang))) := by
  have e : importCalls rel t.walkImports = if lines rel t.walkImports = [] then [] else
      (lines rel t.walkImports).flatMap (fun l => .push :: bitItems l) ++ [.line] := by
    simp only [importCalls, lines, List.append_eq_nil_iff, List.map_eq_nil_iff, List.flatMap_append,
      List.flatMap_map, Bool.and_eq_true, List.isEmpty_iff]
    simp only [and_comm]
  simp only [file, header, e]
  by_cases h : lines rel t.walkImports = []
  · rw [if_pos h, h]
    exact file_none lang cfg _
  · rw [if_neg h, file_before lang (delim_js _) cfg _ (lines_ok rel _) _ hb]

/-! ## Declarations -/

def el' : Element → Str × Option Str
  | .plain n => (n.text, none)
  | .aliased n a => (n.text, some a.text)

def wildDecl (rel : List Component → Str) (e : Mod × ItemStr) : Decl := .wildcard e.2.text (source rel e.1)
def modDecl (rel : List Component → Str) (e : Mod × Resolved) : Decl :=
  .clause (e.2.defaultImport.map ItemStr.text) (e.2.set.map el') (source rel e.1)

def decls (rel : List Component → Str) (l : List Import) : List Decl :=
  (sets l).wildcards.map (wildDecl rel) ++ (sets l).modules.map (modDecl rel)

theorem fromText_text (rel : List Component → Str) (m : Mod) : (fromText rel m).text = source rel m := by
  cases m <;> rfl

theorem bitsText_append {ι : Type} (L : Lang ι) (a b : List Bit) :
    bitsText L (a ++ b) = bitsText L a ++ bitsText L b := by simp [bitsText]

theorem line_text (bits : List Bit) (what : Str) (hw : bitsText lang bits = what)
    (rel : List Component → Str) (m : Mod) :
    lineText lang ([word "import", .space] ++ (bits ++
      [.space, word "from", .space, .quoted (fromText rel m), word ";"])) = line what (source rel m) := by
  have hl : ∃ r b, [word "import", .space] ++ (bits ++
      [.space, word "from", .space, .quoted (fromText rel m), word ";"]) = r ++ [b] ∧ b.shows = true :=
    ⟨[word "import", .space] ++ (bits ++ [.space, word "from", .space, .quoted (fromText rel m)]),
      word ";", by simp, by decide⟩
  rw [lineText_of_last lang hl, bitsText_append, bitsText_append, hw, ← fromText_text]
  show _ = "import ".toList ++ what ++ " from ".toList ++ stringLit lang _ ++ [';']
  have e1 : "import ".toList = "import".toList ++ [' '] := by decide
  have e2 : " from ".toList = [' '] ++ "from".toList ++ [' '] := by decide
  rw [e1, e2]
  simp [bitsText, bitText_space, bitText_word, bitText_boxed, bitText_quoted]

theorem el_text (e : Element) : bitsText lang e.bits = asText (el' e).1 (el' e).2 := by
  cases e with
  | plain n => simp [Element.bits, bitsText, bitText_lit, el', asText]
  | aliased n a =>
    show _ = n.text ++ " as ".toList ++ a.text
    have e1 : " as ".toList = [' '] ++ "as".toList ++ [' '] := by decide
    rw [e1]
    simp [Element.bits, bitsText, bitText_lit, bitText_space, bitText_word, bitText_boxed]

theorem elements_text (es : List Element) :
    bitsText lang (elementsBits es) = ", ".toList.intercalate ((es.map el').map (fun n => asText n.1 n.2)) := by
  induction es with
  | nil => rfl
  | cons e es ih =>
    cases es with
    | nil =>
      simp only [elementsBits, el_text]
      simp [List.intercalate]
    | cons f es =>
      have e1 : elementsBits (e :: f :: es) = e.bits ++ ([boxed ",", .space] ++ elementsBits (f :: es)) := by
        simp [elementsBits]
      rw [e1, bitsText_append, bitsText_append, ih, el_text]
      simp [List.intercalate, bitsText, bitText_space, bitText_word, bitText_boxed, List.intersperse_cons_cons]

theorem clause_text (r : Resolved) : bitsText lang (clauseBits r) =
    clauseText (r.defaultImport.map ItemStr.text) (r.set.map el') := by
  obtain ⟨d, s⟩ := r
  cases s with
  | nil => cases d <;> simp [clauseBits, clauseText, bitsText, bitText_lit]
  | cons x s =>
    have hs : bitsText lang ([boxed "{"] ++ elementsBits (x :: s) ++ [boxed "}"]) = braces ((x :: s).map el') := by
      rw [bitsText_append, bitsText_append, elements_text]
      simp [bitsText, bitText_word, bitText_boxed, braces]
    cases d with
    | none =>
      show bitsText lang ([] ++ ([boxed "{"] ++ elementsBits (x :: s) ++ [boxed "}"])) = _
      rw [List.nil_append, hs]
      rfl
    | some d =>
      show bitsText lang ([.lit d, boxed ",", .space] ++ ([boxed "{"] ++ elementsBits (x :: s) ++ [boxed "}"])) = _
      rw [bitsText_append, hs]
      show _ = d.text ++ ", ".toList ++ braces _
      simp [bitsText, bitText_lit, bitText_word, bitText_boxed, bitText_space]

theorem lines_text (rel : List Component → Str) (l : List Import) :
    (lines rel l).map (lineText lang) = (decls rel l).map Decl.text := by
  simp only [lines, decls, List.map_append, List.map_map]
  refine congrArg₂ (· ++ ·) ?_ ?_ <;> refine List.map_congr_left fun e _ => ?_
  · have := line_text [word "*", .space, word "as", .space, .lit e.2] ("* as ".toList ++ e.2.text)
      (by simp [bitsText, bitText_lit, bitText_word, bitText_boxed, bitText_space]) rel e.1
    exact this
  · have := line_text (clauseBits e.2) _ (clause_text e.2) rel e.1
    rw [← moduleBits_eq] at this
    exact this

theorem file_eq (rel : List Component → Str) (cfg : Config) (t : Tokens Import)
    (hb : losesSpace lang.langItem t.items = false) :
    toFileVec lang cfg (file rel t) =
      (toVec lang cfg t.items).map (fileLines ((decls rel t.walkImports).map Decl.text)) := by
  rw [file_lines rel cfg t hb, lines_text]

/-! ## Names -/

def elImport (m : Mod) : Element → Import
  | .plain n => ⟨.named, m, n, none⟩
  | .aliased n a => ⟨.named, m, n, some a⟩

/-- The imports the declarations stand for. -/
def modImports (e : Mod × Resolved) : List Import :=
  e.2.defaultImport.toList.map (fun d => ⟨.default, e.1, d, none⟩) ++ e.2.set.map (elImport e.1)

def imports (l : List Import) : List Import :=
  (sets l).wildcards.map (fun e => ⟨.wildcard, e.1, e.2, none⟩) ++ (sets l).modules.flatMap modImports

theorem bindings_eq (rel : List Component → Str) (l : List Import) :
    (decls rel l).flatMap Decl.bindings = (imports l).map (fun i => (localName i, target rel i)) := by
  simp only [decls, imports, List.flatMap_append, List.map_append]
  refine congrArg₂ (· ++ ·) ?_ ?_
  · generalize (sets l).wildcards = w
    induction w with
    | nil => rfl
    | cons e w ih => simpa [wildDecl, Decl.bindings, localName, target] using ih
  · generalize (sets l).modules = w
    induction w with
    | nil => rfl
    | cons e w ih =>
      rw [List.map_cons, List.flatMap_cons, List.flatMap_cons, List.map_append, ih]
      refine congrArg (· ++ _) ?_
      simp only [modDecl, Decl.bindings, modImports, List.map_append, List.map_map]
      refine congrArg₂ (· ++ ·) ?_ ?_
      · cases e.2.defaultImport <;> simp [localName, target]
      · refine List.map_congr_left fun x _ => ?_
        cases x <;> rfl

theorem imports_norm (l : List Import) : ∀ i ∈ imports l, i.kind ≠ .named → i.alias = none := by
  intro i hi hk
  simp only [imports, List.mem_append, List.mem_map, List.mem_flatMap, modImports] at hi
  rcases hi with ⟨e, -, rfl⟩ | ⟨e, -, ⟨d, -, rfl⟩ | ⟨x, -, rfl⟩⟩
  · rfl
  · rfl
  · cases x <;> exact absurd rfl hk

theorem same_eq {l : List Import} {i j : Import} (hi : i ∈ imports l) (hj : j ∈ imports l) (h : Same i j) :
    i = j := by
  obtain ⟨h1, h2, h3, h4⟩ := h
  have : i.alias = j.alias := by
    by_cases hk : i.kind = .named
    · exact h4 hk
    · rw [imports_norm l i hi hk, imports_norm l j hj (by rw [← h1]; exact hk)]
  cases i; cases j
  simp_all

theorem elImport_inj (m : Mod) {a b : Element} (h : elImport m a = elImport m b) : a = b := by
  cases a <;> cases b <;> simp_all [elImport]

theorem modImports_nodup {e : Mod × Resolved} (h : Increasing e.2.set) : (modImports e).Nodup := by
  refine List.nodup_append.2 ⟨?_, nodup_map (Increasing.nodup h) (fun a _ b _ hab => elImport_inj _ hab), ?_⟩
  · cases e.2.defaultImport <;> simp
  · intro a ha b hb
    obtain ⟨d, -, rfl⟩ := List.mem_map.1 ha
    obtain ⟨x, -, rfl⟩ := List.mem_map.1 hb
    cases x <;> simp [elImport]

theorem modImports_module {e : Mod × Resolved} {i : Import} (h : i ∈ modImports e) : i.module = e.1 := by
  simp only [modImports, List.mem_append, List.mem_map] at h
  rcases h with ⟨d, -, rfl⟩ | ⟨x, -, rfl⟩
  · rfl
  · cases x <;> rfl

theorem modImports_kind {e : Mod × Resolved} {i : Import} (h : i ∈ modImports e) : i.kind ≠ .wildcard := by
  simp only [modImports, List.mem_append, List.mem_map] at h
  rcases h with ⟨d, -, rfl⟩ | ⟨x, -, rfl⟩
  · simp
  · cases x <;> simp [elImport]

theorem module_get {l : List Import} {e : Mod × Resolved} (h : e ∈ (sets l).modules) :
    used e.1 l = true ∧ e.2 = ⟨defaultOf e.1 l, setOf (elems e.1 l)⟩ := by
  have hs := sets_ok l
  have hg := mapGet_of_mem (k := e.1) (v := e.2) hs.keys h
  rw [hs.get] at hg
  split at hg
  · rename_i hu
    exact ⟨hu, (Option.some.inj hg).symm⟩
  · simp at hg

theorem flatMap_nodup {α β γ : Type} (f : α → List β) (key : β → γ) (key' : α → γ) (l : List α)
    (hl : (l.map key').Nodup) (hf : ∀ a ∈ l, (f a).Nodup) (hk : ∀ a ∈ l, ∀ b ∈ f a, key b = key' a) :
    (l.flatMap f).Nodup := by
  induction l with
  | nil => simp
  | cons a l ih =>
    rw [List.map_cons, List.nodup_cons] at hl
    rw [List.flatMap_cons, List.nodup_append]
    refine ⟨hf a (by simp), ih hl.2 (fun b hb => hf b (by simp [hb])) (fun b hb => hk b (by simp [hb])), ?_⟩
    rintro x hx y hy rfl
    obtain ⟨b, hb, hyb⟩ := List.mem_flatMap.1 hy
    apply hl.1
    rw [← hk a (by simp) x hx, hk b (by simp [hb]) x hyb]
    exact List.mem_map.2 ⟨b, hb, rfl⟩

theorem imports_nodup (l : List Import) : (imports l).Nodup := by
  have hs := sets_ok l
  refine List.nodup_append.2 ⟨?_, ?_, ?_⟩
  · rw [hs.wild]
    refine nodup_map (Increasing.nodup (increasing_setOf _)) ?_
    intro a _ b _ hab
    simp only [Import.mk.injEq, true_and, and_true] at hab
    exact Prod.ext hab.1 hab.2
  · refine flatMap_nodup modImports (·.module) Prod.fst _ (Increasing.nodup hs.keys) ?_ ?_
    · intro e he
      refine modImports_nodup ?_
      rw [(module_get he).2]
      exact increasing_setOf _
    · exact fun e _ i hi => modImports_module hi
  · intro a ha b hb hab
    obtain ⟨e, -, rfl⟩ := List.mem_map.1 ha
    obtain ⟨e', -, hb'⟩ := List.mem_flatMap.1 hb
    exact modImports_kind hb' (by rw [← hab])

theorem default_mem {m : Mod} {l : List Import} {d : ItemStr} (h : defaultOf m l = some d) :
    ∃ i ∈ l, i.kind = .default ∧ i.module = m ∧ i.name = d := by
  simp only [defaultOf, Option.map_eq_some_iff] at h
  obtain ⟨i, hi, rfl⟩ := h
  have h1 := List.mem_of_find?_eq_some hi
  have h2 := List.find?_some hi
  simp only [decide_eq_true_eq] at h2
  exact ⟨i, by simpa using h1, h2.1, h2.2, rfl⟩

/-- Every binding comes from an import. -/
theorem imports_sound {l : List Import} {i : Import} (h : i ∈ imports l) :
    ∃ j ∈ l, Kept l.reverse j ∧ Same i j := by
  have hs := sets_ok l
  simp only [imports, List.mem_append, List.mem_map, List.mem_flatMap] at h
  rcases h with ⟨e, he, rfl⟩ | ⟨e, he, h⟩
  · rw [hs.wild, mem_setOf, List.mem_filterMap] at he
    obtain ⟨j, hj, hje⟩ := he
    unfold wild at hje
    split at hje
    · rename_i hk
      cases hje
      exact ⟨j, hj, fun h => absurd (hk.symm.trans h) (by decide), hk.symm, rfl, rfl, by simp⟩
    · simp at hje
  · have hg := (module_get he).2
    simp only [modImports, List.mem_append, List.mem_map, Option.mem_toList] at h
    rcases h with ⟨d, hd, rfl⟩ | ⟨x, hx, rfl⟩
    · rw [hg] at hd
      obtain ⟨j, hj, h1, h2, h3⟩ := default_mem hd
      refine ⟨j, hj, fun _ => ?_, h1.symm, h2.symm, h3.symm, by simp⟩
      rw [h2, h3]
      exact hd
    · rw [hg, mem_setOf, elems, List.mem_filterMap] at hx
      obtain ⟨j, hj, hje⟩ := hx
      split at hje
      · rename_i hk
        obtain ⟨k, m, n, al⟩ := j
        simp only at hk
        obtain ⟨rfl, rfl⟩ := hk
        refine ⟨_, hj, fun h => Kind.noConfusion h, ?_⟩
        cases al <;> cases hje <;> exact ⟨rfl, rfl, rfl, fun _ => rfl⟩
      · simp at hje

/-- Every import gets a binding that is not a further default name. -/
theorem imports_complete {l : List Import} {i : Import} (hi : i ∈ l) (ho : Kept l.reverse i) :
    ∃ j ∈ imports l, Same j i := by
  have hs := sets_ok l
  have hmod : i.kind ≠ .wildcard →
      (i.module, ⟨defaultOf i.module l, setOf (elems i.module l)⟩) ∈ (sets l).modules := by
    intro hk
    rw [mem_iff_mapGet hs.keys, hs.get, if_pos]
    simp only [used, List.any_eq_true, decide_eq_true_eq]
    exact ⟨i, hi, hk, rfl⟩
  simp only [imports, List.mem_append, List.mem_map, List.mem_flatMap]
  cases hk : i.kind with
  | wildcard =>
    refine ⟨_, .inl ⟨(i.module, i.name), ?_, rfl⟩, hk.symm, rfl, rfl, by simp⟩
    rw [hs.wild, mem_setOf, List.mem_filterMap]
    exact ⟨i, hi, by simp [wild, hk]⟩
  | default =>
    have hd : defaultOf i.module l = some i.name := ho hk
    refine ⟨⟨.default, i.module, i.name, none⟩, .inr ⟨_, hmod (by rw [hk]; decide), ?_⟩, hk.symm, rfl, rfl,
      by simp⟩
    simp [modImports, hd]
  | named =>
    refine ⟨elImport i.module (elOf i), .inr ⟨_, hmod (by rw [hk]; decide), ?_⟩, ?_⟩
    · simp only [modImports, List.mem_append, List.mem_map]
      refine .inr ⟨elOf i, ?_, rfl⟩
      rw [mem_setOf, elems, List.mem_filterMap]
      exact ⟨i, hi, by simp [hk]⟩
    · obtain ⟨k, m, n, al⟩ := i
      simp only at hk
      subst hk
      cases al <;> exact ⟨rfl, rfl, rfl, fun _ => rfl⟩

theorem same_local {i j : Import} (h : Same i j) : localName i = localName j := by
  obtain ⟨k, m, n, al⟩ := i
  obtain ⟨k', m', n', al'⟩ := j
  obtain ⟨h1, h2, h3, h4⟩ := h
  simp only at h1 h2 h3 h4
  subst h1 h2 h3
  cases k with
  | named => rw [h4 rfl]
  | _ => rfl

theorem same_target (rel : List Component → Str) {i j : Import} (h : Same i j) :
    target rel i = target rel j := by
  obtain ⟨h1, h2, h3, -⟩ := h
  simp only [target, h1, h2, h3]

theorem same_symm {i j : Import} (h : Same i j) : Same j i :=
  ⟨h.1.symm, h.2.1.symm, h.2.2.1.symm, fun hk => (h.2.2.2 (h.1.trans hk)).symm⟩

theorem same_trans {i j k : Import} (h : Same i j) (h' : Same j k) : Same i k :=
  ⟨h.1.trans h'.1, h.2.1.trans h'.2.1, h.2.2.1.trans h'.2.2.1,
    fun hk => (h.2.2.2 hk).trans (h'.2.2.2 (h.1 ▸ hk))⟩

theorem nodup_inj {α β : Type} {f : α → β} {l : List α} (h : (l.map f).Nodup) {a b : α} (ha : a ∈ l)
    (hb : b ∈ l) (e : f a = f b) : a = b := by
  induction l with
  | nil => simp at ha
  | cons x l ih =>
    rw [List.map_cons, List.nodup_cons, List.mem_map] at h
    rcases List.mem_cons.1 ha with rfl | hal
    · rcases List.mem_cons.1 hb with rfl | hb
      · rfl
      · exact absurd ⟨b, hb, e.symm⟩ h.1
    · rcases List.mem_cons.1 hb with rfl | hb
      · exact absurd ⟨a, hal, e⟩ h.1
      · exact ih h.2 hal hb

theorem names_nodup (rel : List Component → Str) (l : List Import) :
    (((decls rel l).flatMap Decl.bindings).map Prod.fst).Nodup ↔ Distinct l.reverse := by
  rw [bindings_eq, List.map_map]
  constructor
  · intro h i hi j hj ki kj hl
    rw [List.mem_reverse] at hi hj
    obtain ⟨a, ha, sa⟩ := imports_complete hi ki
    obtain ⟨b, hb, sb⟩ := imports_complete hj kj
    have : a = b := nodup_inj h ha hb (by
      show localName a = localName b
      rw [same_local sa, same_local sb, hl])
    subst this
    exact same_trans (same_symm sa) sb
  · intro hc
    refine nodup_map (imports_nodup l) ?_
    intro a ha b hb hab
    obtain ⟨a', ha', ka, sa⟩ := imports_sound ha
    obtain ⟨b', hb', kb, sb⟩ := imports_sound hb
    have hl : localName a' = localName b' := by
      rw [← same_local sa, ← same_local sb]; exact hab
    have := hc a' (by simpa using ha') b' (by simpa using hb') ka kb hl
    exact same_eq ha hb (same_trans sa (same_trans this (same_symm sb)))

theorem mem_bindings (rel : List Component → Str) (l : List Import) (b : Str × Value) :
    b ∈ (decls rel l).flatMap Decl.bindings ↔
      ∃ i ∈ l, Kept l.reverse i ∧ b = (localName i, target rel i) := by
  rw [bindings_eq, List.mem_map]
  constructor
  · rintro ⟨a, ha, rfl⟩
    obtain ⟨i, hi, hk, hs⟩ := imports_sound ha
    exact ⟨i, hi, hk, by rw [← same_local hs, ← same_target rel hs]⟩
  · rintro ⟨i, hi, hk, rfl⟩
    obtain ⟨j, hj, hs⟩ := imports_complete hi hk
    exact ⟨j, hj, by rw [← same_local hs, ← same_target rel hs]⟩

theorem kept_of_one {l : List Import} (ho : OneDefault l) {i : Import} (hi : i ∈ l) : Kept l i := by
  intro hk
  cases hf : l.find? (fun j => j.kind = .default ∧ j.module = i.module) with
  | none =>
    simp only [List.find?_eq_none, decide_eq_true_eq] at hf
    exact absurd ⟨hk, rfl⟩ (hf i hi)
  | some j =>
    have h1 := List.mem_of_find?_eq_some hf
    have h2 := List.find?_some hf
    simp only [decide_eq_true_eq] at h2
    simp only [Option.map_some]
    rw [ho j h1 i hi h2.1 hk h2.2]

/-! ## Order of the elements -/

def plainOf : Element → Option ItemStr
  | .plain n => some n
  | _ => none

def aliasOf : Element → Option (ItemStr × ItemStr)
  | .aliased n a => some (n, a)
  | _ => none

theorem split_elements {es : List Element} (h : Increasing es) :
    es.map el' = (es.filterMap plainOf).map (fun n => (n.text, none)) ++
      (es.filterMap aliasOf).map (fun p => (p.1.text, some p.2.text)) ∧
    Sorted (es.filterMap plainOf) ∧ Sorted (es.filterMap aliasOf) := by
  induction es with
  | nil => exact ⟨rfl, List.Pairwise.nil, List.Pairwise.nil⟩
  | cons e es ih =>
    obtain ⟨h1, h2⟩ := List.pairwise_cons.1 h
    obtain ⟨i1, i2, i3⟩ := ih h2
    cases e with
    | plain n =>
      refine ⟨?_, ?_, ?_⟩
      · have e : (Element.plain n :: es).filterMap aliasOf = es.filterMap aliasOf := rfl
        rw [e]
        simpa [plainOf, el'] using i1
      · have e : (Element.plain n :: es).filterMap plainOf = n :: es.filterMap plainOf := rfl
        rw [e]
        refine List.pairwise_cons.2 ⟨?_, i2⟩
        intro x hx
        obtain ⟨y, hy, hyx⟩ := List.mem_filterMap.1 hx
        cases y with
        | plain m => cases hyx; exact h1 _ hy
        | aliased m a => simp [plainOf] at hyx
      · exact i3
    | aliased n a =>
      have hnone : es.filterMap plainOf = [] := by
        rw [List.filterMap_eq_nil_iff]
        intro y hy
        cases y with
        | plain m => exact absurd (h1 _ hy) (by intro h; cases h)
        | aliased m a => rfl
      refine ⟨?_, ?_, ?_⟩
      · rw [hnone] at i1
        have e : (Element.aliased n a :: es).filterMap plainOf = [] := hnone
        rw [e]
        simpa [aliasOf, el'] using i1
      · have e : (Element.aliased n a :: es).filterMap plainOf = [] := hnone
        rw [e]
        exact List.Pairwise.nil
      · have e : (Element.aliased n a :: es).filterMap aliasOf = (n, a) :: es.filterMap aliasOf := rfl
        rw [e]
        refine List.pairwise_cons.2 ⟨?_, i3⟩
        intro x hx
        obtain ⟨y, hy, hyx⟩ := List.mem_filterMap.1 hx
        cases y with
        | plain m => simp [aliasOf] at hyx
        | aliased m b => cases hyx; exact h1 _ hy

/-! ## Lines -/

theorem take_quote {a b r s : Str} (ha : '"' ∉ a) (hb : '"' ∉ b) (h : a ++ '"' :: r = b ++ '"' :: s) :
    a = b ∧ r = s := by
  induction a generalizing b with
  | nil =>
    cases b with
    | nil => exact ⟨rfl, (List.cons.inj h).2⟩
    | cons y b => exact absurd (List.cons.inj h).1 (fun e => hb (by rw [e]; exact List.mem_cons_self))
  | cons x a ih =>
    cases b with
    | nil => exact absurd (List.cons.inj h).1 (fun e => ha (by simp [e]))
    | cons y b =>
      obtain ⟨h1, h2⟩ := List.cons.inj h
      obtain ⟨e1, e2⟩ := ih (fun m => ha (by simp [m])) (fun m => hb (by simp [m])) h2
      exact ⟨by rw [h1, e1], e2⟩

theorem line_inj {w v s t : Str} (hw : '"' ∉ w) (hv : '"' ∉ v) (h : line w s = line v t) :
    w = v ∧ s = t := by
  have e : ∀ w s : Str, line w s = ("import ".toList ++ w ++ " from ".toList) ++
      '"' :: ((s.map escJs).flatten ++ ['"', ';']) := by
    intro w s
    show _ ++ stringLit lang s ++ [';'] = _
    have : stringLit lang s = '"' :: ((s.map escJs).flatten ++ ['"']) := by
      show ['"'] ++ _ ++ ['"'] = _
      rfl
    rw [this]
    simp
  rw [e, e] at h
  have hq : ∀ w : Str, '"' ∉ w → '"' ∉ "import ".toList ++ w ++ " from ".toList := by
    intro w hw hm
    rw [List.mem_append, List.mem_append] at hm
    rcases hm with (hm | hm) | hm
    · exact absurd hm (by decide)
    · exact hw hm
    · exact absurd hm (by decide)
  obtain ⟨h1, h2⟩ := take_quote (hq w hw) (hq v hv) h
  refine ⟨List.append_cancel_left (List.append_cancel_right h1), ?_⟩
  have h2 := List.append_cancel_right h2
  exact prefix_js.flatMap escJs_ne (by simpa [List.flatMap_def] using h2)

theorem asText_quote {n : Str} {a : Option Str} (hn : '"' ∉ n) (ha : ∀ x ∈ a, '"' ∉ x) : '"' ∉ asText n a := by
  cases a with
  | none => exact hn
  | some a =>
    intro h
    change '"' ∈ n ++ " as ".toList ++ a at h
    rw [List.mem_append, List.mem_append] at h
    rcases h with (h | h) | h
    · exact hn h
    · exact absurd h (by decide)
    · exact ha a rfl h

theorem braces_quote {ns : List (Str × Option Str)} (hn : ∀ n ∈ ns, '"' ∉ n.1 ∧ ∀ a ∈ n.2, '"' ∉ a) :
    '"' ∉ braces ns := by
  have key : '"' ∉ ", ".toList.intercalate (ns.map (fun n => asText n.1 n.2)) := by
    induction ns with
    | nil => simp [List.intercalate]
    | cons n ns ih =>
      have h1 := asText_quote (hn n (by simp)).1 (hn n (by simp)).2
      have h2 := ih (fun m hm => hn m (by simp [hm]))
      cases ns with
      | nil => simpa [List.intercalate] using h1
      | cons m ns =>
        have e : ", ".toList.intercalate ((n :: m :: ns).map (fun n => asText n.1 n.2)) =
            asText n.1 n.2 ++ (", ".toList ++ ", ".toList.intercalate ((m :: ns).map (fun n => asText n.1 n.2))) := by
          simp [List.intercalate, List.intersperse_cons_cons]
        rw [e, List.mem_append, List.mem_append]
        rintro (h | h | h)
        · exact h1 h
        · exact absurd h (by decide)
        · exact h2 h
  intro h
  unfold braces at h
  rw [List.mem_cons, List.mem_append] at h
  rcases h with h | h | h
  · exact absurd h (by decide)
  · exact key h
  · exact absurd h (by decide)

theorem clauseText_quote {d : Option Str} {ns : List (Str × Option Str)} (hd : ∀ x ∈ d, '"' ∉ x)
    (hn : ∀ n ∈ ns, '"' ∉ n.1 ∧ ∀ a ∈ n.2, '"' ∉ a) : '"' ∉ clauseText d ns := by
  cases d with
  | none =>
    cases ns with
    | nil => simp [clauseText]
    | cons n ns => exact braces_quote hn
  | some d =>
    cases ns with
    | nil => exact hd d rfl
    | cons n ns =>
      intro h
      change '"' ∈ d ++ ", ".toList ++ braces (n :: ns) at h
      rw [List.mem_append, List.mem_append] at h
      rcases h with (h | h) | h
      · exact hd d rfl h
      · exact absurd h (by decide)
      · exact braces_quote hn h

theorem clauseText_head {d : Option Str} {ns : List (Str × Option Str)} (hd : ∀ x ∈ d, '*' ∉ x) :
    (clauseText d ns).head? ≠ some '*' := by
  have head : ∀ x r : Str, '*' ∉ x → r.head? ≠ some '*' → (x ++ r).head? ≠ some '*' := by
    intro x r hx hr
    cases x with
    | nil => exact hr
    | cons c x => intro h; exact hx (by simp [Option.some.inj h])
  cases d with
  | none => cases ns <;> simp [clauseText, braces]
  | some d =>
    cases ns with
    | nil => have := head d [] (hd d rfl) (by simp); simpa [clauseText] using this
    | cons n ns =>
      show (d ++ ", ".toList ++ _).head? ≠ _
      rw [List.append_assoc]
      exact head d _ (hd d rfl) (by simp)

theorem nodup_key {α β : Type} {f : α → β} {l : List α} (h : (l.map f).Nodup) {a b : α} (ha : a ∈ l)
    (hb : b ∈ l) (e : f a = f b) : a = b := by
  induction l with
  | nil => simp at ha
  | cons x l ih =>
    rw [List.map_cons, List.nodup_cons] at h
    rcases List.mem_cons.1 ha with rfl | ha <;> rcases List.mem_cons.1 hb with rfl | hb
    · rfl
    · exact absurd (List.mem_map.2 ⟨b, hb, e.symm⟩) h.1
    · exact absurd (List.mem_map.2 ⟨a, ‹a ∈ l›, e⟩) h.1
    · exact ih h.2 ha hb

/-! ## Order of insertion -/

theorem defaultOf_congr {m : Mod} {l k : List Import} (h : ∀ i, i ∈ l ↔ i ∈ k) (ho : OneDefault l) :
    defaultOf m l = defaultOf m k := by
  cases hl : defaultOf m l with
  | none =>
    cases hk : defaultOf m k with
    | none => rfl
    | some d =>
      obtain ⟨i, hi, h1, h2, -⟩ := default_mem hk
      simp only [defaultOf, Option.map_eq_none_iff, List.find?_eq_none, List.mem_reverse,
        decide_eq_true_eq] at hl
      exact absurd ⟨h1, h2⟩ (hl i ((h i).2 hi))
  | some d =>
    obtain ⟨i, hi, h1, h2, h3⟩ := default_mem hl
    cases hk : defaultOf m k with
    | none =>
      simp only [defaultOf, Option.map_eq_none_iff, List.find?_eq_none, List.mem_reverse,
        decide_eq_true_eq] at hk
      exact absurd ⟨h1, h2⟩ (hk i ((h i).1 hi))
    | some e =>
      obtain ⟨j, hj, g1, g2, g3⟩ := default_mem hk
      rw [← h3, ← g3, ho i hi j ((h j).2 hj) h1 g1 (by rw [h2, g2])]

theorem sets_congr {l k : List Import} (h : ∀ i, i ∈ l ↔ i ∈ k) (ho : OneDefault l) : sets l = sets k := by
  have hl := sets_ok l
  have hk := sets_ok k
  have e1 : (sets l).modules = (sets k).modules := by
    refine map_ext hl.keys hk.keys ?_
    intro m
    have hu : used m l = used m k := by
      rw [Bool.eq_iff_iff]; simp only [used, List.any_eq_true, h]
    have hs : setOf (elems m l) = setOf (elems m k) :=
      setOf_congr (by intro x; simp only [elems, List.mem_filterMap, h])
    rw [hl.get, hk.get, hu, defaultOf_congr h ho, hs]
  have e2 : (sets l).wildcards = (sets k).wildcards := by
    rw [hl.wild, hk.wild]
    exact setOf_congr (by intro x; simp only [List.mem_filterMap, h])
  cases hsl : sets l; cases hsk : sets k
  simp_all

end Genco.Js
