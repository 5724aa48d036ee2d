import Verif.Proofs.Csharp
import Verif.Props.Java
import Verif.Props.Shift

/-!
# Properties of C# files (C43 and parts of C49–C51)
-/

set_option autoImplicit false

namespace Genco.Props

open Genco Spec Spec.CsharpFile Tokens

/-- The calls that put a stream into a namespace block. -/
def namespaceOpen (n : ItemStr) : List (Call Csharp.Import) :=
  [.append (.literal (.static "namespace".toList)), .space, .append (.literal n), .space,
   .append (.literal (.static "{".toList))]

/-- A stream in a namespace block, or as it is. -/
def inNamespace (ns : Option ItemStr) (t : Tokens Csharp.Import) : List (Item Csharp.Import) :=
  match ns with
  | none => t.items
  | some n => (history (namespaceOpen n ++ [.indent, .stream t.items, .unindent,
      .append (.literal (.static "}".toList))])).items

theorem block_eq (n : ItemStr) (t : Tokens Csharp.Import) :
    inNamespace (some n) t = Csharp.block n t := by
  unfold Csharp.block Csharp.blockCalls
  show (history _).items = _
  rw [history_eq]
  refine congrArg (fun l => (Tokens.fromIter l).items) ?_
  simp [namespaceOpen, callItems, bitItems, word, Bit.items]

/-- C43. A C# file is one `using` line, in order, for every namespace chosen for a
type name, and the body, in a block if there is a namespace. For every type name
that is used with a namespace other than the own one the first such namespace in
order is chosen; all other uses are written out in full (`C43_qualified`). -/
theorem C43_header (ns : Option ItemStr) (cfg : Config) (cs : List (Call Csharp.Import))
    (hb : ns = none →
      losesSpace (Csharp.lang ns (history cs)).langItem (history cs).items = false) :
    ∃ us : List Str,
      toFileVec (Csharp.lang ns (history cs)) cfg (Csharp.file ns (history cs)) =
        (toVec (Csharp.lang ns (history cs)) cfg (inNamespace ns (history cs))).map
          (fileLines (us.map usingLine)) ∧
      Sorted us ∧
      ∀ u, u ∈ us ↔ ∃ n, Chosen (ns.map ItemStr.text) ((inserted cs).map target) u n := by
  obtain ⟨us, h⟩ := Csharp.resolved_ok ns (history cs).walkImports
  refine ⟨us, ?_, h.sorted, ?_⟩
  · cases ns with
    | none => exact Csharp.header_file none cfg _ h.lines _ (hb rfl)
    | some n => rw [block_eq]; exact Csharp.file_namespace n cfg _ h.lines
  · intro u
    rw [h.used]
    have hm : ∀ c, c ∈ Csharp.keys (history cs).walkImports ↔ c ∈ (inserted cs).map target := by
      intro c; rw [Csharp.mem_keys]; simp only [List.mem_map, walk_mem]
    simp only [h.get, Csharp.chosen_congr hm]

open Classical in
/-- C43. How a type is written: with its namespace if that is asked for, or if the
name is used with several foreign namespaces and this one was not chosen. -/
theorem C43_qualified (ns : Option ItemStr) (cs : List (Call Csharp.Import)) (i : Csharp.Import)
    (hi : i ∈ inserted cs) :
    ((Csharp.lang ns (history cs)).langItem i).flatten =
      if i.qualified = false ∧ (ns.map ItemStr.text = some i.ns.text ∨
          Chosen (ns.map ItemStr.text) ((inserted cs).map target) i.ns.text i.name.text)
      then i.name.text else i.ns.text ++ '.' :: i.name.text := by
  obtain ⟨us, h⟩ := Csharp.resolved_ok ns (history cs).walkImports
  have hm : ∀ c, c ∈ Csharp.keys (history cs).walkImports ↔ c ∈ (inserted cs).map target := by
    intro c; rw [Csharp.mem_keys]; simp only [List.mem_map, walk_mem]
  have hg : ∀ n p, mapGet n (Csharp.resolved ns (history cs).walkImports).names = some p ↔
      Chosen (ns.map ItemStr.text) ((inserted cs).map target) p n := by
    intro n p; rw [h.get]; exact Csharp.chosen_congr hm p n
  have hall : ns.map ItemStr.text ≠ some i.ns.text →
      ∃ p, mapGet i.name.text (Csharp.resolved ns (history cs).walkImports).names = some p := by
    intro hne
    exact h.all (target i) ((hm _).2 (List.mem_map.2 ⟨i, hi, rfl⟩)) (fun e => hne e.symm)
  show (i.format ns (Csharp.resolved ns (history cs).walkImports).names).flatten = _
  unfold Csharp.Import.format Csharp.isQualified
  cases hq : i.qualified with
  | true => simp
  | false =>
    by_cases ho : ns.map ItemStr.text = some i.ns.text
    · simp [ho]
    · obtain ⟨p, hp⟩ := hall ho
      by_cases hpe : p = i.ns.text
      · subst hpe
        have hc := (hg _ _).1 hp
        simp [hp, hc]
      · have hn : ¬ Chosen (ns.map ItemStr.text) ((inserted cs).map target) i.ns.text i.name.text := by
          rw [← hg, hp]; simpa using hpe
        simp [ho, hp, hpe, hn]

/-- C43. Exactly which references name the type their import asks for: those written
with their namespace, those to types of the own namespace, and those whose bare name
no other namespace takes. -/
theorem C43_denotes (ns : Option ItemStr) (cfg : Config) (cs : List (Call Csharp.Import))
    (types : Str → Str → Prop)
    (hb : ns = none →
      losesSpace (Csharp.lang ns (history cs)).langItem (history cs).items = false)
    (hp : ∀ i ∈ inserted cs, Proper types i) :
    ∃ us : List Str,
      toFileVec (Csharp.lang ns (history cs)) cfg (Csharp.file ns (history cs)) =
        (toVec (Csharp.lang ns (history cs)) cfg (inNamespace ns (history cs))).map
          (fileLines (us.map usingLine)) ∧
      ∀ i ∈ inserted cs, (Denotes ⟨ns.map ItemStr.text, us, types⟩
        ((Csharp.lang ns (history cs)).langItem i).flatten i.ns.text i.name.text ↔
        (i.qualified = false →
          Chosen (ns.map ItemStr.text) ((inserted cs).map target) i.ns.text i.name.text →
          Free (ns.map ItemStr.text) types ((inserted cs).map target) (target i))) := by
  obtain ⟨us, h⟩ := Csharp.resolved_ok ns (history cs).walkImports
  refine ⟨us, ?_, ?_⟩
  · cases ns with
    | none => exact Csharp.header_file none cfg _ h.lines _ (hb rfl)
    | some n => rw [block_eq]; exact Csharp.file_namespace n cfg _ h.lines
  · intro i hi
    have hm : ∀ c, c ∈ (history cs).walkImports.map target ↔ c ∈ (inserted cs).map target := by
      intro c; simp only [List.mem_map, walk_mem]
    rw [← Csharp.free_congr hm, ← Csharp.chosen_congr hm]
    exact Csharp.denotes_iff ns _ types h (fun j hj => hp j ((walk_mem cs j).1 hj)) i
      ((walk_mem cs i).2 hi)

/-- C43, in part: every reference names the type its import asks for, and different
types are written differently, provided a name written without namespace is in no
other namespace around the file nor in another namespace that is used (see
`C43_used_witness`, `C43_own_witness`). -/
theorem C43_csharp_partial (ns : Option ItemStr) (cfg : Config) (cs : List (Call Csharp.Import))
    (types : Str → Str → Prop)
    (hb : ns = none →
      losesSpace (Csharp.lang ns (history cs)).langItem (history cs).items = false)
    (hp : ∀ i ∈ inserted cs, Proper types i)
    (ha : Apart (ns.map ItemStr.text) types ((inserted cs).map target)) :
    ∃ us : List Str,
      toFileVec (Csharp.lang ns (history cs)) cfg (Csharp.file ns (history cs)) =
        (toVec (Csharp.lang ns (history cs)) cfg (inNamespace ns (history cs))).map
          (fileLines (us.map usingLine)) ∧
      (∀ i ∈ inserted cs, Denotes ⟨ns.map ItemStr.text, us, types⟩
        ((Csharp.lang ns (history cs)).langItem i).flatten i.ns.text i.name.text) ∧
      ∀ i ∈ inserted cs, ∀ j ∈ inserted cs,
        ((Csharp.lang ns (history cs)).langItem i).flatten =
          ((Csharp.lang ns (history cs)).langItem j).flatten → target i = target j := by
  obtain ⟨us, hf, h⟩ := C43_denotes ns cfg cs types hb hp
  have hd : ∀ i ∈ inserted cs, Denotes ⟨ns.map ItemStr.text, us, types⟩
        ((Csharp.lang ns (history cs)).langItem i).flatten i.ns.text i.name.text :=
    fun i hi => (h i hi).2 fun _ hc => Csharp.apart_free ha hc
  refine ⟨us, hf, hd, ?_⟩
  intro i hi j hj he
  have hj' := hd j hj
  rw [← he] at hj'
  obtain ⟨h1, h2⟩ := Csharp.denotes_unique (hd i hi) hj'
  exact Prod.ext h1 h2

/-- The stream of the examples: a name of two namespaces, one type asked for in
full, and one of the own namespace. -/
def csharpDemo : List (Call Csharp.Import) :=
  [.appendLang ⟨.static "System.IO".toList, .static "Path".toList, false⟩, .space,
   .appendLang ⟨.static "Drawing".toList, .static "Path".toList, false⟩, .push,
   .appendLang ⟨.static "System.Text".toList, .static "Rune".toList, true⟩, .space,
   .appendLang ⟨.static "My.App".toList, .static "Main".toList, false⟩]

example : toFileVec (Csharp.lang (some (.static "My.App".toList)) (history csharpDemo)) ⟨.space 4, ['\n']⟩
      (Csharp.file (some (.static "My.App".toList)) (history csharpDemo)) =
    some ["using Drawing;".toList, "using System.Text;".toList, [], "namespace My.App {".toList,
      "    System.IO.Path Path".toList, "    System.Text.Rune Main".toList, "}".toList] := by
  decide +kernel

/-- The types of the examples. -/
def csharpWorld (p n : Str) : Prop :=
  (p, n) ∈ [("System.IO".toList, "Path".toList), ("Drawing".toList, "Path".toList),
    ("System.Text".toList, "Rune".toList), ("My.App".toList, "Main".toList)]

instance (p n : Str) : Decidable (csharpWorld p n) := by unfold csharpWorld; infer_instance

theorem csharpDemo_inserted : inserted csharpDemo =
    [⟨.static "System.IO".toList, .static "Path".toList, false⟩,
     ⟨.static "Drawing".toList, .static "Path".toList, false⟩,
     ⟨.static "System.Text".toList, .static "Rune".toList, true⟩,
     ⟨.static "My.App".toList, .static "Main".toList, false⟩] := rfl

/-- The example meets the hypotheses. -/
example : (∀ i ∈ inserted csharpDemo, Proper csharpWorld i) ∧
    Apart (some "My.App".toList) csharpWorld ((inserted csharpDemo).map target) := by
  refine ⟨?_, ?_⟩
  · rw [csharpDemo_inserted]; unfold Proper; decide +kernel
  · have hc : ∀ p n, Chosen (some "My.App".toList) ((inserted csharpDemo).map target) p n →
        (p, n) ∈ [("Drawing".toList, "Path".toList), ("System.Text".toList, "Rune".toList)] := by
      rintro p n ⟨hm, ho, hmin⟩
      rw [csharpDemo_inserted] at hm hmin
      simp only [List.map_cons, List.map_nil, target, ItemStr.text, List.mem_cons, Prod.mk.injEq,
        List.not_mem_nil, or_false] at hm hmin
      rcases hm with ⟨rfl, rfl⟩ | ⟨rfl, rfl⟩ | ⟨rfl, rfl⟩ | ⟨rfl, rfl⟩
      · exact absurd (hmin "Drawing".toList (by decide) (by decide)) (by decide +kernel)
      · decide
      · decide
      · exact absurd rfl ho
    intro p n h
    have hpn := hc p n h
    simp only [List.mem_cons, Prod.mk.injEq, List.not_mem_nil, or_false] at hpn
    refine ⟨?_, ?_⟩
    · intro q hq hw
      unfold csharpWorld at hw
      simp only [List.mem_cons, Prod.mk.injEq, List.not_mem_nil, or_false] at hw
      have he : q ≠ "System.IO".toList ∧ q ≠ "Drawing".toList ∧ q ≠ "System.Text".toList := by
        rcases hq with rfl | ⟨o, ho, hq⟩
        · decide
        · cases ho
          rcases hq with rfl | ⟨r, hr⟩
          · decide
          · refine ⟨?_, ?_, ?_⟩ <;> (rintro rfl; revert hr; simp)
      rcases hpn with ⟨rfl, rfl⟩ | ⟨rfl, rfl⟩ <;>
        rcases hw with ⟨h1, h2⟩ | ⟨h1, h2⟩ | ⟨h1, h2⟩ | ⟨h1, h2⟩ <;>
        first | exact absurd h1 he.1 | exact absurd h1 he.2.1 | exact absurd h1 he.2.2 | exact absurd h2 (by decide)
    · intro u m hu hw
      have hum := hc u m hu
      simp only [List.mem_cons, Prod.mk.injEq, List.not_mem_nil, or_false] at hum
      rcases hpn with ⟨rfl, rfl⟩ | ⟨rfl, rfl⟩ <;> rcases hum with ⟨rfl, rfl⟩ | ⟨rfl, rfl⟩ <;>
        first | rfl | exact absurd hw (by decide)

/-- C43: a name that was qualified because of a clash leaves its namespace in use if
another type of it is used, and the unqualified name is then ambiguous. -/
theorem C43_used_witness :
    let i : Csharp.Import := ⟨.static "A".toList, .static "X".toList, false⟩
    let j : Csharp.Import := ⟨.static "B".toList, .static "X".toList, false⟩
    let k : Csharp.Import := ⟨.static "B".toList, .static "Y".toList, false⟩
    let t := history [Call.appendLang i, .space, .appendLang j, .space, .appendLang k]
    toFileVec (Csharp.lang none t) ⟨.space 4, ['\n']⟩ (Csharp.file none t) =
      some [usingLine "A".toList, usingLine "B".toList, [], "X B.X Y".toList] ∧
    ∀ types : Str → Str → Prop, (∀ n, ¬ types [] n) → types "A".toList "X".toList →
      types "B".toList "X".toList →
      ∀ p n, ¬ Denotes ⟨none, ["A".toList, "B".toList], types⟩
        ((Csharp.lang none t).langItem i).flatten p n := by
  refine ⟨by decide +kernel, fun types hg ha hb p n h => ?_⟩
  have hr : ((Csharp.lang none (history [Call.appendLang
      (⟨.static "A".toList, .static "X".toList, false⟩ : Csharp.Import), .space,
      .appendLang ⟨.static "B".toList, .static "X".toList, false⟩, .space,
      .appendLang ⟨.static "B".toList, .static "Y".toList, false⟩])).langItem
      ⟨.static "A".toList, .static "X".toList, false⟩).flatten = "X".toList := by decide +kernel
  rw [hr] at h
  generalize hX : "X".toList = x at h
  cases h with
  | around ns n hn he hc hd =>
    rcases he with rfl | ⟨o, ho, -⟩
    · exact hg _ hc
    · simp at ho
  | used ns n hn hna hm hc hu =>
    subst hX
    have h1 := hu "A".toList (by simp) ha
    have h2 := hu "B".toList (by simp) hb
    rw [← h1] at h2
    exact absurd h2 (by decide)
  | full ns n hn hc =>
    have : '.' ∈ "X".toList := by rw [hX]; simp
    exact absurd this (by decide)

/-- C43: a foreign type is written without its namespace although the file's own
namespace has a type of that name, which then is meant. -/
theorem C43_own_witness :
    let i : Csharp.Import := ⟨.static "A".toList, .static "X".toList, false⟩
    let j : Csharp.Import := ⟨.static "My".toList, .static "X".toList, false⟩
    let t := history [Call.appendLang i, .space, .appendLang j]
    let ns := some (ItemStr.static "My".toList)
    toFileVec (Csharp.lang ns t) ⟨.space 4, ['\n']⟩ (Csharp.file ns t) =
      some [usingLine "A".toList, [], namespaceLine "My".toList, "    X X".toList, "}".toList] ∧
    ∀ types : Str → Str → Prop, (∀ n, ¬ types [] n) → types "My".toList "X".toList →
      ¬ Denotes ⟨some "My".toList, ["A".toList], types⟩
        ((Csharp.lang ns t).langItem i).flatten i.ns.text i.name.text := by
  refine ⟨by decide +kernel, fun types hg hc h => ?_⟩
  have h' : Denotes ⟨some "My".toList, ["A".toList], types⟩ "X".toList "My".toList "X".toList := by
    refine .around _ _ (by decide) (.inr ⟨_, rfl, .inl rfl⟩) hc ?_
    intro q hq hl
    rcases hq with rfl | ⟨o, ho, hq⟩
    · simp at hl
    · cases ho
      rcases hq with rfl | ⟨r, hr⟩
      · simp at hl
      · have := congrArg List.length hr
        rw [List.length_append, List.length_cons] at this
        exact absurd hl (by omega)
  have hr : ((Csharp.lang (some (ItemStr.static "My".toList)) (history [Call.appendLang
      (⟨.static "A".toList, .static "X".toList, false⟩ : Csharp.Import), .space,
      .appendLang ⟨.static "My".toList, .static "X".toList, false⟩])).langItem
      ⟨.static "A".toList, .static "X".toList, false⟩).flatten = "X".toList := by decide +kernel
  dsimp only at h
  rw [hr] at h
  exact absurd (Csharp.denotes_unique h h').1 (by decide)

/-- C49 for C#: header and choice of qualified names depend only on the set of
imports. -/
theorem C49_csharp (ns : Option ItemStr) (cs ds : List (Call Csharp.Import))
    (h : ∀ i, i ∈ inserted cs ↔ i ∈ inserted ds) :
    Csharp.header ns (history cs) = Csharp.header ns (history ds) ∧
    Csharp.lang ns (history cs) = Csharp.lang ns (history ds) := by
  have hk : Csharp.resolved ns (history cs).walkImports = Csharp.resolved ns (history ds).walkImports := by
    have : Csharp.keys (history cs).walkImports = Csharp.keys (history ds).walkImports :=
      setOf_congr (by intro x; simp only [List.mem_map, walk_mem, h])
    unfold Csharp.keys at this
    unfold Csharp.resolved
    rw [this]
  have he : (history cs).walkImports.isEmpty = (history ds).walkImports.isEmpty := by
    rw [Bool.eq_iff_iff, List.isEmpty_iff, List.isEmpty_iff, List.eq_nil_iff_forall_not_mem,
      List.eq_nil_iff_forall_not_mem]
    simp only [walk_mem, h]
  constructor
  · simp only [Csharp.header, Csharp.importCalls, hk, he]
  · simp only [Csharp.lang, hk]

/-- C50 for C#: no `using` line twice, however the texts are given. -/
theorem C50_csharp (ns : Option ItemStr) (cfg : Config) (cs : List (Call Csharp.Import))
    (hb : ns = none →
      losesSpace (Csharp.lang ns (history cs)).langItem (history cs).items = false) :
    ∃ hd : List Str,
      toFileVec (Csharp.lang ns (history cs)) cfg (Csharp.file ns (history cs)) =
        (toVec (Csharp.lang ns (history cs)) cfg (inNamespace ns (history cs))).map (fileLines hd) ∧
      hd.Nodup := by
  obtain ⟨us, h1, h2, -⟩ := C43_header ns cfg cs hb
  exact ⟨_, h1, nodup_map (Increasing.nodup h2) (fun a _ b _ e => Csharp.usingLine_inj e)⟩

/-- C51 for C#: there is a header exactly if a foreign type is used. -/
theorem C51_csharp (ns : Option ItemStr) (cfg : Config) (cs : List (Call Csharp.Import))
    (hb : ns = none →
      losesSpace (Csharp.lang ns (history cs)).langItem (history cs).items = false) :
    ∃ hd : List Str,
      toFileVec (Csharp.lang ns (history cs)) cfg (Csharp.file ns (history cs)) =
        (toVec (Csharp.lang ns (history cs)) cfg (inNamespace ns (history cs))).map (fileLines hd) ∧
      (hd = [] ↔ ∀ i ∈ inserted cs, ns.map ItemStr.text = some i.ns.text) := by
  have hbl := hb
  obtain ⟨us, h⟩ := Csharp.resolved_ok ns (history cs).walkImports
  refine ⟨us.map usingLine, ?_, ?_⟩
  · cases ns with
    | none => exact Csharp.header_file none cfg _ h.lines _ (hb rfl)
    | some n => rw [block_eq]; exact Csharp.file_namespace n cfg _ h.lines
  · rw [List.map_eq_nil_iff, List.eq_nil_iff_forall_not_mem]
    constructor
    · intro hn i hi
      by_contra hne
      obtain ⟨p, hp⟩ := h.all (target i)
        ((Csharp.mem_keys _ _).2 (List.mem_map.2 ⟨i, (walk_mem cs i).2 hi, rfl⟩)) (fun e => hne e.symm)
      exact hn p ((h.used p).2 ⟨_, hp⟩)
    · intro ha u hu
      obtain ⟨n, hn⟩ := (h.used u).1 hu
      obtain ⟨hm, ho, -⟩ := (h.get n u).1 hn
      rw [Csharp.mem_keys] at hm
      obtain ⟨i, hi, he⟩ := List.mem_map.1 hm
      have := ha i ((walk_mem cs i).1 hi)
      rw [this] at ho
      exact ho (congrArg some (congrArg Prod.fst he).symm)

theorem vec_words (cfg : Config) (a n b : Str) (ha : a ≠ []) (hb : b ≠ []) :
    (vecActs cfg .new .new [.text a, .space, .text n, .space, .text b]).intoVec =
      [a ++ [' '] ++ n ++ ([' '] ++ b)] := by
  have z : marginText cfg 0 = [] := by unfold marginText; cases cfg.indentation <;> simp
  by_cases hn : n = [] <;>
    simp [vecActs, vecAct, actSt, hn, ha, hb, flushPad, LSt.flushed, LSt.new, VecState.new,
      VecState.intoVec, z, List.replicate]

/-- `namespaceOpen` as a tree. -/
def namespaceCode (n : ItemStr) : Code Csharp.Import :=
  .item (.literal (.static "namespace".toList)) (.item .space
    (.item (.literal n) (.item .space (.item (.literal (.static "{".toList)) .nil))))

theorem namespaceCode_acts (L : Lang Csharp.Import) (cfg : Config) (n : ItemStr) :
    (namespaceCode n).acts L cfg =
      [.text "namespace".toList, .space, .text n.text, .space, .text "{".toList] := rfl

theorem namespace_vec (L : Lang Csharp.Import) (cfg : Config) (n : ItemStr) :
    toVec L cfg (namespaceCode n).items = some [namespaceLine n.text] := by
  have hp : (namespaceCode n).plain = true := rfl
  rw [toVec_eq, resolveItems_code _ cfg _ hp, namespaceCode_acts]
  dsimp only [Option.map_some]
  rw [vec_words cfg _ _ _ (by decide) (by decide)]
  show _ = some ["namespace ".toList ++ n.text ++ " {".toList]
  have e1 : "namespace ".toList = "namespace".toList ++ [' '] := by decide
  have e2 : " {".toList = [' '] ++ "{".toList := by decide
  rw [e1, e2]

/-- C51 for C# with a namespace: the file is the `using` lines, a blank line if
there are any, the line that opens the namespace, the lines of the body moved in
by one level, and the closing brace, for every body that stands on lines of its
own. -/
theorem C51_csharp_namespace (n : ItemStr) (cfg : Config) (cs : List (Call Csharp.Import))
    (b : Code Csharp.Import) (hb : b.items = (history cs).items) (pb : b.plain = true)
    (wf : ∀ i, (history cs).items.head? = some i → isWs i = false)
    (wl : ∀ i, (history cs).items.getLast? = some i → isWs i = false)
    (hB : Whole (b.acts (Csharp.lang (some n) (history cs)) cfg)) :
    ∃ hd lb, toVec (Csharp.lang (some n) (history cs)) cfg (history cs).items = some lb ∧
      toFileVec (Csharp.lang (some n) (history cs)) cfg (Csharp.file (some n) (history cs)) =
        some (fileLines hd (namespaceLine n.text :: (lb.map (movedIn cfg 1) ++ ["}".toList]))) ∧
      (hd = [] ↔ ∀ i ∈ inserted cs, some n.text = some i.ns.text) := by
  obtain ⟨hd, h1, h2⟩ := C51_csharp (some n) cfg cs (by simp)
  have ho : (namespaceCode n).items = (history (namespaceOpen n)).items := rfl
  obtain ⟨la, lb, e1, e2, e3⟩ := C63_block (Csharp.lang (some n) (history cs)) cfg (namespaceOpen n) cs
    (namespaceCode n) b ho hb rfl pb (.static "}".toList) (by decide)
    (by rintro i h; cases h; rfl) wf wl
    (by rw [namespaceCode_acts]; exact ⟨[.text "namespace".toList, .space, .text n.text, .space], _, rfl, by decide⟩)
    0 (by rw [namespaceCode_acts]; rfl) hB
  refine ⟨hd, lb, e2, ?_, h2⟩
  rw [h1]
  unfold inNamespace
  dsimp only
  rw [← ho, namespace_vec] at e1
  have z : marginText cfg 0 = [] := by unfold marginText; cases cfg.indentation <;> simp
  rw [e3, ← Option.some.inj e1, z]
  rfl

/-- The stream of the examples as a tree. -/
def csharpCode : Code Csharp.Import :=
  (history csharpDemo).items.foldr Code.item .nil

/-- The example meets the hypotheses. -/
example : csharpCode.items = (history csharpDemo).items ∧ csharpCode.plain = true ∧
    (∀ i, (history csharpDemo).items.head? = some i → isWs i = false) ∧
    (∀ i, (history csharpDemo).items.getLast? = some i → isWs i = false) ∧
    Whole (csharpCode.acts (Csharp.lang (some (.static "My.App".toList)) (history csharpDemo))
      ⟨.space 4, ['\n']⟩) := by
  refine ⟨by decide +kernel, by decide +kernel, by decide +kernel, by decide +kernel, ?_⟩
  have h : csharpCode.acts (Csharp.lang (some (.static "My.App".toList)) (history csharpDemo))
      ⟨.space 4, ['\n']⟩ = [.text "System.IO".toList, .text ".".toList, .text "Path".toList, .space,
        .text "Path".toList, .push, .text "System.Text".toList, .text ".".toList, .text "Rune".toList,
        .space, .text "Main".toList] := by decide +kernel
  rw [h]
  refine ⟨⟨_, _, rfl, by decide⟩, ⟨_, _, (List.dropLast_concat_getLast (by simp)).symm, by decide⟩, ?_, by decide⟩
  intro p hp
  rw [← List.mem_inits] at hp
  revert p
  decide +kernel

end Genco.Props
