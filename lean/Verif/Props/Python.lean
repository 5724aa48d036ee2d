import Verif.Proofs.Python
import Verif.Props.Simple

/-!
# Properties of Python files (C45 and parts of C49–C51)
-/

set_option autoImplicit false

namespace Genco.Props

open Genco Spec Spec.PythonFile

/-- C45, in part: a reference evaluates to what its import asks for exactly if no
import claims its name for another value and the import does not ask for an alias
of a name that is written with its module (see `C45_alias_witness`). -/
theorem C45_python_partial (cfg : Config) (cs : List (Call Python.Import))
    (hb : losesSpace Python.lang.langItem (history cs).items = false)
    (hp : ∀ i ∈ inserted cs, Proper i) :
    ∃ ss : List Stmt,
      toFileVec Python.lang cfg (Python.file (history cs)) =
        (toVec Python.lang cfg (history cs).items).map (fileLines (ss.map Stmt.text)) ∧
      ∀ i ∈ inserted cs,
        (Resolves ss (Python.lang.langItem i).flatten (moduleOf i) (target i) ↔
          Usual i ∧ ∀ j ∈ inserted cs, ∀ n f f', Claims i n f → Claims j n f' → f = f') := by
  have hp' : ∀ i ∈ (history cs).walkImports, Proper i := fun i hi => hp i ((walk_mem cs i).1 hi)
  refine ⟨Python.stmts (history cs).walkImports, ?_, ?_⟩
  · rw [Python.file_lines cfg _ hb, Python.lines_text _ hp']
  · intro i hi
    refine (Python.resolves_iff _ i ((walk_mem cs i).2 hi) (hp i hi)).trans ?_
    simp only [walk_mem]

/-- C45. What the header says: one `from` statement per module of a plain import,
sorted, with the names asked for, sorted; then one `import` statement per module
and alias, sorted; nothing else. -/
theorem C45_content (cfg : Config) (cs : List (Call Python.Import))
    (hb : losesSpace Python.lang.langItem (history cs).items = false)
    (hp : ∀ i ∈ inserted cs, Proper i) :
    ∃ (fs : List (ItemStr × List (ItemStr × Option ItemStr))) (is : List (ItemStr × Option ItemStr)),
      toFileVec Python.lang cfg (Python.file (history cs)) =
        (toVec Python.lang cfg (history cs).items).map (fileLines
          (fs.map (fun e => (Stmt.from_ e.1.text
              (e.2.map (fun n => (n.1.text, n.2.map ItemStr.text)))).text) ++
            is.map (fun e => (Stmt.import_ e.1.text (e.2.map ItemStr.text)).text))) ∧
      Sorted (fs.map (·.1)) ∧ Sorted is ∧
      (∀ e ∈ fs, Sorted e.2 ∧ e.2 ≠ [] ∧
        ∀ n a, (n, a) ∈ e.2 ↔ .object (.unqualified e.1) n a ∈ inserted cs) ∧
      (∀ p n a, .object (.unqualified p) n a ∈ inserted cs → p ∈ fs.map (·.1)) ∧
      ∀ p b, (p, b) ∈ is ↔
        (∃ n a, .object (.qualified p b) n a ∈ inserted cs) ∨ .module p b ∈ inserted cs := by
  have hp' : ∀ i ∈ (history cs).walkImports, Proper i := fun i hi => hp i ((walk_mem cs i).1 hi)
  obtain ⟨e1, e2⟩ := Python.sets_eq (history cs).walkImports
  refine ⟨(Python.sets (history cs).walkImports).from_, (Python.sets (history cs).walkImports).imports,
    ?_, ?_, ?_, ?_, ?_, ?_⟩
  · rw [Python.file_lines cfg _ hb, Python.lines_text _ hp']
    simp only [Python.stmts, List.map_append, List.map_map]
    rfl
  · rw [e1]; exact keys_collect _ _
  · rw [e2]; exact increasing_setOf _
  · intro e he
    refine ⟨?_, Python.from_ne he, fun n a => ?_⟩
    · rw [e1] at he
      obtain ⟨k, s⟩ := e
      obtain ⟨-, rfl⟩ := (mem_collect _ _ k s).1 he
      exact increasing_setOf _
    · rw [Python.mem_from he (n, a), walk_mem]
  · intro p n a h
    obtain ⟨e, he, rfl, -⟩ := Python.exists_from ((walk_mem cs _).2 h)
    exact List.mem_map.2 ⟨e, he, rfl⟩
  · intro p b
    rw [Python.mem_imports _ (p, b)]
    simp only [walk_mem]

/-- The stream of the examples. -/
def pythonDemo : List (Call Python.Import) :=
  [.appendLang (Python.import_ (.static "collections".toList) (.static "namedtuple".toList)), .space,
   .appendLang ((Python.import_ (.static "collections".toList) (.static "deque".toList)).withAlias
     (.static "dq".toList)), .space,
   .appendLang (Python.import_ (.static "os.path".toList) (.static "join".toList)).qualified, .space,
   .appendLang ((Python.import_ (.static "numpy.linalg".toList) (.static "norm".toList)).withModuleAlias
     (.static "la".toList)), .space,
   .appendLang (.module (.static "os.path".toList) none)]

example : toFileVec Python.lang ⟨.space 4, ['\n']⟩ (Python.file (history pythonDemo)) =
    some ["from collections import deque as dq, namedtuple".toList,
      "import numpy.linalg as la".toList, "import os.path".toList, [],
      "namedtuple dq os.path.join la.norm os.path".toList] := by decide +kernel

theorem pythonDemo_inserted (i : Python.Import) : i ∈ inserted pythonDemo ↔
    i ∈ [Python.Import.object (.unqualified (.static "collections".toList)) (.static "namedtuple".toList) none,
      .object (.unqualified (.static "collections".toList)) (.static "deque".toList)
        (some (.static "dq".toList)),
      .object (.qualified (.static "os.path".toList) none) (.static "join".toList) none,
      .object (.qualified (.static "numpy.linalg".toList) (some (.static "la".toList)))
        (.static "norm".toList) none,
      .module (.static "os.path".toList) none] := Iff.rfl

/-- The first part of `os.path`. -/
theorem firstPart_os {n : Str} (h : FirstPart '.' "os.path".toList n) : n = "os".toList := by
  obtain ⟨h1, h | ⟨q, h⟩⟩ := h
  · rw [← h] at h1; exact absurd (by decide) h1
  · rcases n with _ | ⟨a, _ | ⟨b, _ | ⟨c, n⟩⟩⟩
    · exact absurd (congrArg List.head? h) (by simp)
    · exact absurd (congrArg (fun l => l[1]?) h) (by simp)
    · have h0 := congrArg (fun l => l[0]?) h
      have h1 := congrArg (fun l => l[1]?) h
      simp only [List.cons_append, List.nil_append] at h0 h1
      have e0 : 'o' = a := Option.some.inj h0
      have e1 : 's' = b := Option.some.inj h1
      subst e0 e1; rfl
    · have h2 := congrArg (fun l => l[2]?) h
      have e2 : '.' = c := Option.some.inj h2
      subst e2
      simp at h1

example : losesSpace Python.lang.langItem (history pythonDemo).items = false ∧
    (∀ i ∈ inserted pythonDemo, Proper i) ∧ (∀ i ∈ inserted pythonDemo, Usual i) ∧
    (∀ i ∈ inserted pythonDemo, ∀ j ∈ inserted pythonDemo, ∀ n f f',
      Claims i n f → Claims j n f' → f = f') := by
  refine ⟨by decide, ?_, ?_, ?_⟩
  · intro i hi
    rw [pythonDemo_inserted] at hi
    simp only [List.mem_cons, List.not_mem_nil, or_false] at hi
    rcases hi with rfl | rfl | rfl | rfl | rfl <;>
      refine ⟨by decide, ?_⟩ <;> simp [names, ItemStr.text]
  · intro i hi
    rw [pythonDemo_inserted] at hi
    simp only [List.mem_cons, List.not_mem_nil, or_false] at hi
    rcases hi with rfl | rfl | rfl | rfl | rfl <;> simp [Usual]
  · intro i hi j hj n f f'
    rw [pythonDemo_inserted] at hi hj
    simp only [List.mem_cons, List.not_mem_nil, or_false] at hi hj
    rcases hi with rfl | rfl | rfl | rfl | rfl <;> rcases hj with rfl | rfl | rfl | rfl | rfl <;>
      (rintro ⟨h1, rfl⟩ ⟨h2, rfl⟩
       first
        | rfl
        | (subst h1; exact absurd h2 (by decide))
        | (subst h1; exact absurd (firstPart_os h2) (by decide))
        | (subst h2; exact absurd (firstPart_os h1) (by decide)))

/-- C45: with both an alias and its module the reference is the module and the
alias, which the module does not have; the alias is in no statement. -/
theorem C45_alias_witness :
    let i := ((Python.import_ (.static "m".toList) (.static "f".toList)).withAlias
      (.static "g".toList)).qualified
    let ss := [Stmt.import_ "m".toList none]
    toFileVec Python.lang ⟨.space 4, ['\n']⟩ (Python.file (history [.appendLang i])) =
      some (ss.map Stmt.text ++ [[], "m.g".toList]) ∧
    Proper i ∧ target i = "m.f".toList ∧
    ¬ Resolves ss (Python.lang.langItem i).flatten (moduleOf i) (target i) := by
  refine ⟨by decide +kernel, ⟨by decide, ?_⟩, by decide, ?_⟩
  · intro x hx
    change x ∈ [ItemStr.static "f".toList, .static "g".toList] at hx
    simp only [List.mem_cons, List.not_mem_nil, or_false] at hx
    rcases hx with rfl | rfl <;> decide
  · rintro ⟨⟨seg, rest, p, href, hseg, -, ⟨s, hs, hbind⟩, hfull, -⟩, -⟩
    simp only [List.mem_cons, List.not_mem_nil, or_false] at hs
    subst hs
    obtain ⟨-, rfl⟩ := hbind
    exact absurd (href.trans hfull.symm) (by decide)

/-- C49 for Python. -/
theorem C49_python (cs ds : List (Call Python.Import)) (h : ∀ i, i ∈ inserted cs ↔ i ∈ inserted ds) :
    (Python.file (history cs)).head? = (Python.file (history ds)).head? := by
  have hk : Python.sets (history cs).walkImports = Python.sets (history ds).walkImports :=
    Python.sets_congr (by intro i; simp only [walk_mem, h])
  simp only [Python.file, Python.header, Python.importCalls, hk, List.head?_cons]

/-- C50 for Python, in part: no line twice if equal texts are stored the same way
and no module contains a space. -/
theorem C50_python_partial (cfg : Config) (cs : List (Call Python.Import))
    (hb : losesSpace Python.lang.langItem (history cs).items = false)
    (hp : ∀ i ∈ inserted cs, Proper i) (hu : Uniform strs (inserted cs))
    (hc : ∀ i ∈ inserted cs, ' ' ∉ moduleOf i) :
    ∃ hd : List Str,
      toFileVec Python.lang cfg (Python.file (history cs)) =
        (toVec Python.lang cfg (history cs).items).map (fileLines hd) ∧ hd.Nodup := by
  obtain ⟨fs, is, h1, h2, h3, h4, h5, h6⟩ := C45_content cfg cs hb hp
  refine ⟨_, h1, ?_⟩
  have hfm : ∀ e ∈ fs, ∃ i ∈ inserted cs, e.1.text = moduleOf i ∧ e.1 ∈ strs i := by
    intro e he
    obtain ⟨-, hne, hm⟩ := h4 e he
    obtain ⟨⟨n, a⟩, hn⟩ := List.exists_mem_of_ne_nil _ hne
    exact ⟨_, (hm n a).1 hn, rfl, by simp [strs]⟩
  have him : ∀ e ∈ is, ∃ i ∈ inserted cs, e.1.text = moduleOf i ∧ e.1 ∈ strs i ∧
      ∀ b ∈ e.2, b ∈ strs i := by
    rintro ⟨p, b⟩ he
    rcases (h6 p b).1 he with ⟨n, a, h⟩ | h
    · exact ⟨_, h, rfl, by simp [strs], by rintro c rfl; simp [strs]⟩
    · exact ⟨_, h, rfl, by simp [strs], by rintro c rfl; simp [strs]⟩
  rw [List.nodup_append]
  refine ⟨nodup_map ?_ ?_, nodup_map (Increasing.nodup h3) ?_, ?_⟩
  · exact List.Pairwise.of_map (·.1) (fun a b h e => h (by rw [e])) (Increasing.nodup h2)
  · intro a ha b hb' hab
    obtain ⟨i, hi, ei, mi⟩ := hfm a ha
    obtain ⟨j, hj, ej, mj⟩ := hfm b hb'
    have : a.1.text = b.1.text := by
      exact Python.from_inj (by rw [ei]; exact hc i hi) (by rw [ej]; exact hc j hj) hab
    have hk := hu i hi j hj _ mi _ mj this
    exact Python.keys_inj h2 ha hb' hk
  · intro a ha b hb' hab
    obtain ⟨i, hi, ei, mi, ni⟩ := him a ha
    obtain ⟨j, hj, ej, mj, nj⟩ := him b hb'
    obtain ⟨e1, e2⟩ := Python.import_inj (by rw [ei]; exact hc i hi) (by rw [ej]; exact hc j hj) hab
    have k1 := hu i hi j hj _ mi _ mj e1
    obtain ⟨p, x⟩ := a
    obtain ⟨q, y⟩ := b
    simp only at k1 e2
    rcases x with _ | x <;> rcases y with _ | y <;> simp only [Option.map_none, Option.map_some, reduceCtorEq] at e2
    · rw [k1]
    · rw [k1, hu i hi j hj _ (ni x rfl) _ (nj y rfl) (Option.some.inj e2)]
  · intro a ha b hb' hab
    obtain ⟨e, -, rfl⟩ := List.mem_map.1 ha
    obtain ⟨e', -, rfl⟩ := List.mem_map.1 hb'
    exact Python.from_ne_import hab

/-- C50: a module stored once boxed and once static. -/
theorem C50_python_witness :
    toFileVec Python.lang ⟨.space 4, ['\n']⟩ (Python.file (history
      [.appendLang (.module (.static "m".toList) none), .appendLang (.module (.box "m".toList) none)])) =
    some ["import m".toList, "import m".toList, [], "mm".toList] := by decide +kernel

/-- C51 for Python. -/
theorem C51_python (cfg : Config) (cs : List (Call Python.Import))
    (hb : losesSpace Python.lang.langItem (history cs).items = false) :
    ∃ hd : List Str,
      toFileVec Python.lang cfg (Python.file (history cs)) =
        (toVec Python.lang cfg (history cs).items).map (fileLines hd) ∧
      (hd = [] ↔ inserted cs = []) := by
  refine ⟨_, Python.file_lines cfg _ hb, ?_⟩
  rw [List.map_eq_nil_iff, Python.lines, List.append_eq_nil_iff, List.map_eq_nil_iff, List.map_eq_nil_iff]
  constructor
  · rintro ⟨h1, h2⟩
    rw [List.eq_nil_iff_forall_not_mem]
    intro i hi
    have hi := (walk_mem cs i).2 hi
    rcases i with ⟨p | ⟨p, a⟩, x, a'⟩ | ⟨p, a⟩
    · obtain ⟨e, he, -⟩ := Python.exists_from hi
      rw [h1] at he; simp at he
    · have := (Python.mem_imports _ (p, a)).2 (.inl ⟨x, a', hi⟩)
      rw [h2] at this; simp at this
    · have := (Python.mem_imports _ (p, a)).2 (.inr hi)
      rw [h2] at this; simp at this
  · intro h
    have : (history cs).walkImports = [] := by
      rw [List.eq_nil_iff_forall_not_mem]
      intro i hi
      rw [walk_mem, h] at hi
      simp at hi
    rw [this]
    exact ⟨rfl, rfl⟩

end Genco.Props
