import Verif.Props.Python
import Verif.Props.Js

/-!
# C50: repeated imports in Python and JavaScript, exactly

In terms of statements, not of lines: a line is one statement, and modules and names are
texts that may contain anything.
-/

set_option autoImplicit false

namespace Genco.Props

open Genco Spec

section Python

open Spec.PythonFile

/-- A `from` statement for the stored module asks for this name. -/
def Asks (cs : List (Call Python.Import)) (p n : ItemStr) (a : Option ItemStr) : Prop :=
  .object (.unqualified p) n a ∈ inserted cs

/-- An `import` statement is asked for. -/
def AsksModule (cs : List (Call Python.Import)) (p : ItemStr) (b : Option ItemStr) : Prop :=
  (∃ n a, .object (.qualified p b) n a ∈ inserted cs) ∨ .module p b ∈ inserted cs

/-- C50 for Python, exactly: no module has two `from` statements iff equal modules of plain imports
are stored alike; no `from` statement repeats a name iff equal names (with equal aliases) of a stored
module are stored alike; no `import` statement is repeated iff equal modules with equal aliases are
stored alike. -/
theorem C50_python_exact_partial (cfg : Config) (cs : List (Call Python.Import))
    (hb : losesSpace Python.lang.langItem (history cs).items = false) (hp : ∀ i ∈ inserted cs, Proper i) :
    ∃ (fs : List (Str × List (Str × Option Str))) (is : List (Str × Option Str)),
      toFileVec Python.lang cfg (Python.file (history cs)) =
        (toVec Python.lang cfg (history cs).items).map (fileLines
          (fs.map (fun e => (Stmt.from_ e.1 e.2).text) ++ is.map (fun e => (Stmt.import_ e.1 e.2).text))) ∧
      ((fs.map (·.1)).Nodup ↔ ∀ p n a q m b, Asks cs p n a → Asks cs q m b → p.text = q.text → p = q) ∧
      ((∀ e ∈ fs, e.2.Nodup) ↔ ∀ p n a m b, Asks cs p n a → Asks cs p m b →
        n.text = m.text → a.map ItemStr.text = b.map ItemStr.text → n = m ∧ a = b) ∧
      (is.Nodup ↔ ∀ p b q c, AsksModule cs p b → AsksModule cs q c → p.text = q.text →
        b.map ItemStr.text = c.map ItemStr.text → p = q ∧ b = c) := by
  obtain ⟨fs, is, h1, h2, h3, h4, h5, h6⟩ := C45_content cfg cs hb hp
  refine ⟨fs.map (fun e => (e.1.text, e.2.map (fun n => (n.1.text, n.2.map ItemStr.text)))),
    is.map (fun e => (e.1.text, e.2.map ItemStr.text)), ?_, ?_, ?_, ?_⟩
  · rw [h1]; simp only [List.map_map, Function.comp_def]
  · have : (fs.map (fun e => (e.1.text, e.2.map (fun n => (n.1.text, n.2.map ItemStr.text))))).map (·.1) =
        (fs.map (·.1)).map ItemStr.text := by simp [Function.comp_def]
    rw [this, List.nodup_map_iff_inj_on (Increasing.nodup h2)]
    constructor
    · intro h p n a q m b hp hq e
      exact h p (h5 p n a hp) q (h5 q m b hq) e
    · intro h p hp q hq e
      have get : ∀ p ∈ fs.map (·.1), ∃ n a, Asks cs p n a := by
        intro p hp
        obtain ⟨x, hx, rfl⟩ := List.mem_map.1 hp
        obtain ⟨-, hne, hm⟩ := h4 x hx
        obtain ⟨⟨n, a⟩, hn⟩ := List.exists_mem_of_ne_nil _ hne
        exact ⟨n, a, (hm n a).1 hn⟩
      obtain ⟨n, a, hn⟩ := get p hp
      obtain ⟨m, b, hm⟩ := get q hq
      exact h p n a q m b hn hm e
  · rw [List.forall_mem_map]
    constructor
    · intro h p n a m b hn hm e1 e2
      obtain ⟨x, hx, rfl⟩ := List.mem_map.1 (h5 p n a hn)
      obtain ⟨hs, -, hx'⟩ := h4 x hx
      have := (List.nodup_map_iff_inj_on (Increasing.nodup hs)).1 (h x hx) (n, a) ((hx' n a).2 hn) (m, b)
        ((hx' m b).2 hm) (by simp only [e1, e2])
      exact Prod.mk.inj this
    · intro h x hx
      obtain ⟨hs, -, hx'⟩ := h4 x hx
      refine (List.nodup_map_iff_inj_on (Increasing.nodup hs)).2 ?_
      rintro ⟨n, a⟩ hn ⟨m, b⟩ hm e
      obtain ⟨e1, e2⟩ := Prod.mk.inj e
      obtain ⟨e1, e2⟩ := h x.1 n a m b ((hx' n a).1 hn) ((hx' m b).1 hm) e1 e2
      rw [e1, e2]
  · rw [List.nodup_map_iff_inj_on (Increasing.nodup h3)]
    constructor
    · intro h p b q c hp hq e1 e2
      exact Prod.mk.inj (h (p, b) ((h6 p b).2 hp) (q, c) ((h6 q c).2 hq) (by simp only [e1, e2]))
    · rintro h ⟨p, b⟩ hp ⟨q, c⟩ hq e
      obtain ⟨e1, e2⟩ := Prod.mk.inj e
      obtain ⟨e1, e2⟩ := h p b q c ((h6 p b).1 hp) ((h6 q c).1 hq) e1 e2
      rw [e1, e2]

/-- `x` and `y` of a module stored in two ways: two `from` statements. -/
example :
    let cs : List (Call Python.Import) := [.appendLang (.object (.unqualified (.static "m".toList)) (.static "x".toList) none),
      .space, .appendLang (.object (.unqualified (.box "m".toList)) (.static "y".toList) none)]
    losesSpace Python.lang.langItem (history cs).items = false ∧
    toFileVec Python.lang ⟨.space 4, ['\n']⟩ (Python.file (history cs)) =
      some ["from m import y".toList, "from m import x".toList, [], "x y".toList] ∧
    ¬ ∀ p n a q m b, Asks cs p n a → Asks cs q m b → p.text = q.text → p = q := by
  refine ⟨by decide +kernel, by decide +kernel, fun h => ?_⟩
  exact absurd (h (.static "m".toList) (.static "x".toList) none (.box "m".toList) (.static "y".toList) none
    (by unfold Asks; decide) (by unfold Asks; decide) rfl) (by simp)

/-- One of them, twice: nothing is repeated. -/
example :
    let cs : List (Call Python.Import) := [.appendLang (.object (.unqualified (.static "m".toList)) (.static "x".toList) none),
      .space, .appendLang (.object (.unqualified (.static "m".toList)) (.static "x".toList) none)]
    (∀ p n a q m b, Asks cs p n a → Asks cs q m b → p.text = q.text → p = q) ∧
    ∀ p n a m b, Asks cs p n a → Asks cs p m b →
        n.text = m.text → a.map ItemStr.text = b.map ItemStr.text → n = m ∧ a = b := by
  have key : ∀ (i : Python.Import) p n a, i ∈ inserted [Call.appendLang (.object (.unqualified (.static "m".toList))
      (.static "x".toList) none), .space, .appendLang (.object (.unqualified (.static "m".toList)) (.static "x".toList) none)] →
      i = .object (.unqualified p) n a → p = .static "m".toList ∧ n = .static "x".toList ∧ a = none := by
    intro i p n a h e
    subst e
    have h : Python.Import.object (.unqualified p) n a ∈ [Python.Import.object (.unqualified (.static "m".toList))
      (.static "x".toList) none, .object (.unqualified (.static "m".toList)) (.static "x".toList) none] := h
    simpa using h
  refine ⟨?_, ?_⟩
  · intro p n a q m b h1 h2 _
    rw [(key _ _ _ _ h1 rfl).1, (key _ _ _ _ h2 rfl).1]
  · intro p n a m b h1 h2 _ _
    obtain ⟨-, rfl, rfl⟩ := key _ _ _ _ h1 rfl
    obtain ⟨-, rfl, rfl⟩ := key _ _ _ _ h2 rfl
    exact ⟨rfl, rfl⟩

end Python

section Js

open Spec.JsFile Js

/-- A declaration of a module, in texts: the default name, the names as they are, the renamed ones,
the source. -/
structure JsClause where
  default_ : Option Str
  plain : List Str
  renamed : List (Str × Str)
  source : Str

/-- As a declaration. -/
def JsClause.decl (c : JsClause) : Decl :=
  .clause c.default_ (c.plain.map (fun n => (n, none)) ++ c.renamed.map (fun p => (p.1, some p.2))) c.source

/-- C50 for JavaScript, exactly: no wildcard import is repeated iff modules of equal sources with
equal names are equal and equal names are stored alike; no module has two other declarations iff
modules of equal sources are equal; no declaration repeats a name iff equal names of a module (and
equal aliases of them) are stored alike. -/
theorem C50_js_exact_partial (rel : List Component → Str) (cfg : Config) (cs : List (Call Js.Import))
    (hb : losesSpace Js.lang.langItem (history cs).items = false) :
    ∃ (ws : List (Str × Str)) (ms : List JsClause),
      toFileVec Js.lang cfg (Js.file rel (history cs)) =
        (toVec Js.lang cfg (history cs).items).map (fileLines
          (ws.map (fun w => (Decl.wildcard w.2 w.1).text) ++ ms.map (fun m => m.decl.text))) ∧
      (ws.Nodup ↔ ∀ i ∈ inserted cs, ∀ j ∈ inserted cs, i.kind = .wildcard → j.kind = .wildcard →
        source rel i.module = source rel j.module → i.name.text = j.name.text →
        i.module = j.module ∧ i.name = j.name) ∧
      ((ms.map (·.source)).Nodup ↔ ∀ i ∈ inserted cs, ∀ j ∈ inserted cs, i.kind ≠ .wildcard → j.kind ≠ .wildcard →
        source rel i.module = source rel j.module → i.module = j.module) ∧
      ((∀ m ∈ ms, m.plain.Nodup ∧ m.renamed.Nodup) ↔ ∀ i ∈ inserted cs, ∀ j ∈ inserted cs,
        i.kind = .named → j.kind = .named → i.module = j.module → i.name.text = j.name.text →
        i.alias.map ItemStr.text = j.alias.map ItemStr.text → i.name = j.name ∧ i.alias = j.alias) := by
  obtain ⟨ws, ms, h1, h2, h3, h4, h5, h6⟩ := C41_header rel cfg cs hb
  refine ⟨ws.map (fun w => (source rel w.1, w.2.text)),
    ms.map (fun m => ⟨m.default_.map ItemStr.text, m.plain.map ItemStr.text,
      m.aliased.map (fun p => (p.1.text, p.2.text)), source rel m.module⟩), ?_, ?_, ?_, ?_⟩
  · rw [h1]
    simp only [List.map_map, Function.comp_def, JsClause.decl, ModuleLine.decl]
  · rw [List.nodup_map_iff_inj_on (Increasing.nodup h2)]
    constructor
    · intro h i hi j hj ki kj e1 e2
      exact Prod.mk.inj (h (i.module, i.name) ((h3 _ _).2 ⟨i, hi, ki, rfl, rfl⟩) (j.module, j.name)
        ((h3 _ _).2 ⟨j, hj, kj, rfl, rfl⟩) (by simp only [e1, e2]))
    · rintro h ⟨m, n⟩ hm ⟨m', n'⟩ hm' e
      obtain ⟨i, hi, ki, rfl, rfl⟩ := (h3 m n).1 hm
      obtain ⟨j, hj, kj, rfl, rfl⟩ := (h3 m' n').1 hm'
      obtain ⟨e1, e2⟩ := Prod.mk.inj e
      obtain ⟨e1, e2⟩ := h i hi j hj ki kj e1 e2
      rw [e1, e2]
  · have : (ms.map (fun m => (⟨m.default_.map ItemStr.text, m.plain.map ItemStr.text,
      m.aliased.map (fun p => (p.1.text, p.2.text)), source rel m.module⟩ : JsClause))).map (·.source) =
        (ms.map (·.module)).map (source rel) := by simp [Function.comp_def]
    rw [this, List.nodup_map_iff_inj_on (Increasing.nodup h4)]
    constructor
    · intro h i hi j hj ki kj e
      exact h _ ((h5 _).2 ⟨i, hi, ki, rfl⟩) _ ((h5 _).2 ⟨j, hj, kj, rfl⟩) e
    · intro h m hm m' hm' e
      obtain ⟨i, hi, ki, rfl⟩ := (h5 m).1 hm
      obtain ⟨j, hj, kj, rfl⟩ := (h5 m').1 hm'
      exact h i hi j hj ki kj e
  · rw [List.forall_mem_map]
    constructor
    · intro h i hi j hj ki kj em en ea
      obtain ⟨m, hm, e⟩ := List.mem_map.1 ((h5 i.module).2 ⟨i, hi, by rw [ki]; decide, rfl⟩)
      obtain ⟨-, s1, s2, p1, p2⟩ := h6 m hm
      obtain ⟨d1, d2⟩ := h m hm
      cases ha : i.alias with
      | none =>
        rw [ha] at ea
        have hb : j.alias = none := by simpa using ea.symm
        refine ⟨(List.nodup_map_iff_inj_on (Increasing.nodup s1)).1 d1 _ ((p1 _).2 ⟨i, hi, ki, e.symm, rfl, ha⟩) _
          ((p1 _).2 ⟨j, hj, kj, by rw [← em, e], rfl, hb⟩) en, hb.symm⟩
      | some a =>
        rw [ha] at ea
        obtain ⟨b, hb, eb⟩ := Option.map_eq_some_iff.1 ea.symm
        have := (List.nodup_map_iff_inj_on (Increasing.nodup s2)).1 d2 _ ((p2 _ _).2 ⟨i, hi, ki, e.symm, rfl, ha⟩) _
          ((p2 _ _).2 ⟨j, hj, kj, by rw [← em, e], rfl, hb⟩) (by simp only [en, eb])
        obtain ⟨e1, e2⟩ := Prod.mk.inj this
        exact ⟨e1, by rw [hb, e2]⟩
    · intro h m hm
      obtain ⟨-, s1, s2, p1, p2⟩ := h6 m hm
      constructor
      · refine (List.nodup_map_iff_inj_on (Increasing.nodup s1)).2 ?_
        intro n hn n' hn' e
        obtain ⟨i, hi, ki, em, rfl, ha⟩ := (p1 n).1 hn
        obtain ⟨j, hj, kj, em', rfl, ha'⟩ := (p1 n').1 hn'
        exact (h i hi j hj ki kj (by rw [em, em']) e (by rw [ha, ha'])).1
      · refine (List.nodup_map_iff_inj_on (Increasing.nodup s2)).2 ?_
        rintro ⟨n, a⟩ hn ⟨n', a'⟩ hn' e
        obtain ⟨i, hi, ki, em, rfl, ha⟩ := (p2 n a).1 hn
        obtain ⟨j, hj, kj, em', rfl, ha'⟩ := (p2 n' a').1 hn'
        obtain ⟨e1, e2⟩ := Prod.mk.inj e
        obtain ⟨r1, r2⟩ := h i hi j hj ki kj (by rw [em, em']) e1 (by rw [ha, ha', Option.map_some, Option.map_some, e2])
        rw [ha, ha'] at r2
        rw [r1, Option.some.inj r2]

/-- The module of `C50_js_witness`, stored in two ways. -/
example (rel : List Component → Str) :
    let cs : List (Call Js.Import) := [.appendLang ⟨.named, .global (.static "m".toList), .static "a".toList, none⟩, .space,
       .appendLang ⟨.named, .global (.box "m".toList), .static "a".toList, none⟩]
    ¬ ∀ i ∈ inserted cs, ∀ j ∈ inserted cs, i.kind ≠ .wildcard → j.kind ≠ .wildcard →
        source rel i.module = source rel j.module → i.module = j.module := by
  intro cs h
  exact absurd (h ⟨.named, .global (.static "m".toList), .static "a".toList, none⟩ (by decide)
    ⟨.named, .global (.box "m".toList), .static "a".toList, none⟩ (by decide) (by simp) (by simp) rfl) (by simp)

end Js

end Genco.Props
