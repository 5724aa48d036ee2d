import Verif.Props.Java
import Verif.Props.Csharp
import Verif.Props.Worded
import Verif.Props.Solo
import Verif.Props.Extend

/-!
# C106: adding code to Java and C# files
-/

set_option autoImplicit false

namespace Genco.Props

open Genco Spec

theorem grown {ι : Type} (cs ds : List (Call ι)) : inserted (cs ++ ds) = inserted cs ++ inserted ds := by
  simp [inserted]

/-! ## C# -/

section

open Spec.CsharpFile

theorem chosen_grow (own : Option Str) (a b : List (Str × Str)) (ns n : Str) (h : (ns, n) ∈ a) :
    Chosen own (a ++ b) ns n ↔
      Chosen own a ns n ∧ ∀ ns', (ns', n) ∈ b → some ns' ≠ own → ns' = ns ∨ compare ns ns' = .lt := by
  constructor
  · rintro ⟨-, hf, hx⟩
    exact ⟨⟨h, hf, fun ns' hm => hx ns' (List.mem_append_left _ hm)⟩, fun ns' hm => hx ns' (List.mem_append_right _ hm)⟩
  · rintro ⟨⟨-, hf, hx⟩, hy⟩
    refine ⟨List.mem_append_left _ h, hf, fun ns' hm => ?_⟩
    rcases List.mem_append.1 hm with hm | hm
    · exact hx ns' hm
    · exact hy ns' hm

/-- C106. Exactly when adding code to a C# file changes how a reference that is there already is written: if its name
was free to be written bare, and a type of the same name is added whose namespace is not the own one and comes before
that of the reference. -/
theorem C106_csharp (ns : Option ItemStr) (cs ds : List (Call Csharp.Import)) (i : Csharp.Import) (hi : i ∈ inserted cs) :
    ((Csharp.lang ns (history (cs ++ ds))).langItem i).flatten ≠ ((Csharp.lang ns (history cs)).langItem i).flatten ↔
      i.qualified = false ∧ Chosen (ns.map ItemStr.text) ((inserted cs).map target) i.ns.text i.name.text ∧
      ∃ j ∈ inserted ds, j.name.text = i.name.text ∧ some j.ns.text ≠ ns.map ItemStr.text ∧
        compare j.ns.text i.ns.text = .lt := by
  have hi' : i ∈ inserted (cs ++ ds) := by rw [grown]; exact List.mem_append_left _ hi
  rw [C43_qualified ns (cs ++ ds) i hi', C43_qualified ns cs i hi, grown, List.map_append,
    chosen_grow _ _ _ _ _ (List.mem_map.2 ⟨i, hi, rfl⟩)]
  have hlen : i.name.text ≠ i.ns.text ++ '.' :: i.name.text := fun h => by
    have := congrArg List.length h
    simp at this
    omega
  have key : (∃ j ∈ inserted ds, j.name.text = i.name.text ∧ some j.ns.text ≠ ns.map ItemStr.text ∧
        compare j.ns.text i.ns.text = .lt) ↔
      ¬ ∀ ns', (ns', i.name.text) ∈ (inserted ds).map target → some ns' ≠ ns.map ItemStr.text →
        ns' = i.ns.text ∨ compare i.ns.text ns' = .lt := by
    constructor
    · rintro ⟨j, hj, hn, hf, hlt⟩ h
      rcases h j.ns.text (List.mem_map.2 ⟨j, hj, by rw [target, hn]⟩) hf with h | h
      · rw [h, cmp_self] at hlt; exact absurd hlt (by decide)
      · exact Csharp.lt_asymm' h hlt
    · intro h
      simp only [not_forall] at h
      obtain ⟨ns', hm, hf, hx⟩ := h
      obtain ⟨j, hj, he⟩ := List.mem_map.1 hm
      obtain ⟨rfl, hn⟩ := Prod.mk.inj he
      refine ⟨j, hj, hn, hf, ?_⟩
      rw [not_or] at hx
      cases hc : compare j.ns.text i.ns.text with
      | lt => rfl
      | eq => exact absurd (Std.LawfulEqOrd.eq_of_compare hc) hx.1
      | gt => exact absurd (Std.OrientedCmp.lt_of_gt hc) hx.2
  rw [key]
  by_cases hq : i.qualified = false
  · by_cases ho : ns.map ItemStr.text = some i.ns.text
    · have : ¬ Chosen (ns.map ItemStr.text) ((inserted cs).map target) i.ns.text i.name.text := fun h => h.2.1 ho.symm
      rw [if_pos ⟨hq, .inl ho⟩, if_pos ⟨hq, .inl ho⟩]
      exact ⟨fun h => absurd rfl h, fun h => absurd h.2.1 this⟩
    · by_cases hc : Chosen (ns.map ItemStr.text) ((inserted cs).map target) i.ns.text i.name.text
      · by_cases hx : ∀ ns', (ns', i.name.text) ∈ (inserted ds).map target → some ns' ≠ ns.map ItemStr.text →
            ns' = i.ns.text ∨ compare i.ns.text ns' = .lt
        · rw [if_pos ⟨hq, .inr ⟨hc, hx⟩⟩, if_pos ⟨hq, .inr hc⟩]
          exact ⟨fun h => absurd rfl h, fun h => absurd hx h.2.2⟩
        · rw [if_neg (by rintro ⟨-, h | h⟩; exacts [ho h, hx h.2]), if_pos ⟨hq, .inr hc⟩]
          exact ⟨fun _ => ⟨hq, hc, hx⟩, fun _ h => hlen h.symm⟩
      · rw [if_neg (by rintro ⟨-, h | h⟩; exacts [ho h, hc h.1]), if_neg (by rintro ⟨-, h | h⟩; exacts [ho h, hc h])]
        simp [hc]
  · simp [hq]

/-- C106. If no reference changes, no line with `using` goes. -/
theorem C106_csharp_usings (ns : Option ItemStr) (cfg : Config) (cs ds : List (Call Csharp.Import))
    (hb : ns = none → losesSpace (Csharp.lang ns (history cs)).langItem (history cs).items = false)
    (hb' : ns = none → losesSpace (Csharp.lang ns (history (cs ++ ds))).langItem (history (cs ++ ds)).items = false)
    (h : ∀ i ∈ inserted cs, ∀ j ∈ inserted ds, j.name.text = i.name.text → some j.ns.text ≠ ns.map ItemStr.text →
      compare j.ns.text i.ns.text ≠ .lt) :
    ∃ us us' : List Str, us ⊆ us' ∧
      toFileVec (Csharp.lang ns (history cs)) cfg (Csharp.file ns (history cs)) =
        (toVec (Csharp.lang ns (history cs)) cfg (inNamespace ns (history cs))).map (fileLines (us.map usingLine)) ∧
      toFileVec (Csharp.lang ns (history (cs ++ ds))) cfg (Csharp.file ns (history (cs ++ ds))) =
        (toVec (Csharp.lang ns (history (cs ++ ds))) cfg (inNamespace ns (history (cs ++ ds)))).map
          (fileLines (us'.map usingLine)) := by
  obtain ⟨us, h1, -, h2⟩ := C43_header ns cfg cs hb
  obtain ⟨us', h1', -, h2'⟩ := C43_header ns cfg (cs ++ ds) hb'
  refine ⟨us, us', fun u hu => ?_, h1, h1'⟩
  obtain ⟨n, hc⟩ := (h2 u).1 hu
  refine (h2' u).2 ⟨n, ?_⟩
  rw [grown, List.map_append, chosen_grow _ _ _ _ _ hc.1]
  refine ⟨hc, fun ns' hm hf => ?_⟩
  obtain ⟨i, hi, he⟩ := List.mem_map.1 hc.1
  obtain ⟨rfl, rfl⟩ := Prod.mk.inj he
  obtain ⟨j, hj, he⟩ := List.mem_map.1 hm
  obtain ⟨rfl, hn⟩ := Prod.mk.inj he
  have := h i hi j hj hn hf
  cases hc : compare i.ns.text j.ns.text with
  | lt => exact .inr rfl
  | eq => exact .inl (Std.LawfulEqOrd.eq_of_compare hc).symm
  | gt => exact absurd (Std.OrientedCmp.lt_of_gt hc) this

theorem csharp_format_ext (ns : Option ItemStr) (a b : List (Str × Str)) (i : Csharp.Import)
    (h : (i.format ns a).flatten = (i.format ns b).flatten) : i.format ns a = i.format ns b := by
  have hlen : i.name.text ≠ i.ns.text ++ '.' :: i.name.text := fun h => by
    have := congrArg List.length h
    simp at this
    omega
  unfold Csharp.Import.format at h ⊢
  split <;> split <;> rename_i h1 h2
  · rfl
  · rw [if_pos h1, if_neg h2] at h
    exact absurd (by simpa using h.symm) hlen
  · rw [if_neg h1, if_pos h2] at h
    exact absurd (by simpa using h) hlen
  · rfl

/-- C106. If no type that is added comes before one of the same name, the lines of the stream
stay as they are, the last of them being continued. -/
theorem C106_csharp_body (ns : Option ItemStr) (cfg : Config) (cs ds : List (Call Csharp.Import))
    (h : ∀ i ∈ inserted cs, ∀ j ∈ inserted ds, j.name.text = i.name.text → some j.ns.text ≠ ns.map ItemStr.text →
      compare j.ns.text i.ns.text ≠ .lt)
    (f : MFrame) (fs : List MFrame) (hc : marks (history cs).items = some [f :: fs]) (hf : f.isEval = false) :
    ∃ init last, toVec (Csharp.lang ns (history cs)) cfg (history cs).items = some (init ++ [last]) ∧
      ∀ ls, toVec (Csharp.lang ns (history (cs ++ ds))) cfg (history (cs ++ ds)).items = some ls →
        ∃ more rest, ls = init ++ (last ++ more) :: rest := by
  have he : toVec (Csharp.lang ns (history (cs ++ ds))) cfg (history cs).items =
      toVec (Csharp.lang ns (history cs)) cfg (history cs).items :=
    toVec_items_congr _ (Csharp.lang ns (history cs)).langItem cfg _ fun n i hi => by
      have hi := lang_inserted cs n i hi
      refine csharp_format_ext ns _ _ i ?_
      by_contra hne
      obtain ⟨-, -, j, hj, hn, hfj, hlt⟩ := (C106_csharp ns cs ds i hi).1 hne
      exact h i hi j hj hn hfj hlt
  rw [← he]
  exact C107_lines _ cfg cs ds f fs hc hf

/-- A type whose namespace comes first takes the name from one that was there. -/
theorem C106_csharp_witness :
    let i : Csharp.Import := ⟨.static "B".toList, .static "X".toList, false⟩
    let j : Csharp.Import := ⟨.static "A".toList, .static "X".toList, false⟩
    ((Csharp.lang none (history [.appendLang i])).langItem i).flatten = "X".toList ∧
    ((Csharp.lang none (history [.appendLang i, .appendLang j])).langItem i).flatten = "B.X".toList := by
  refine ⟨?_, ?_⟩ <;> decide +kernel

/-- A type of a namespace that comes later takes nothing. -/
example : toFileVec (Csharp.lang none (history [.appendLang ⟨.static "B".toList, .static "X".toList, false⟩, .space,
      .appendLang ⟨.static "C".toList, .static "X".toList, false⟩])) ⟨.space 4, ['\n']⟩
      (Csharp.file none (history [.appendLang ⟨.static "B".toList, .static "X".toList, false⟩, .space,
      .appendLang ⟨.static "C".toList, .static "X".toList, false⟩])) =
    some ["using B;".toList, [], "X C.X".toList] := by decide +kernel

example : ∀ i ∈ inserted [Call.appendLang (⟨.static "B".toList, .static "X".toList, false⟩ : Csharp.Import)],
    ∀ j ∈ inserted [Call.appendLang (⟨.static "C".toList, .static "X".toList, false⟩ : Csharp.Import)],
      compare j.ns.text i.ns.text ≠ .lt := by decide +kernel

end

/-! ## Java -/

section

open Spec.JavaFile

/-- Classes that are the same are stored alike. -/
def Stored (l : List Java.Import) : Prop := ∀ i ∈ l, ∀ j ∈ l, target i = target j → (i.package, i.name) = (j.package, j.name)

open Classical in
theorem java_written (package : Option ItemStr) (cs : List (Call Java.Import)) (hs : Stored (inserted cs)) (i : Java.Import)
    (hi : i ∈ inserted cs) :
    (Foreign (package.map ItemStr.text) (target i) → ((Java.lang package (history cs)).langItem i).flatten =
      if Chosen (package.map ItemStr.text) (inserted cs) i then i.name.text else i.package.text ++ '.' :: i.name.text) ∧
    (¬ Foreign (package.map ItemStr.text) (target i) → ((Java.lang package (history cs)).langItem i).flatten = i.name.text) := by
  have hd : langPackage = Java.javaLangPkg := rfl
  refine ⟨fun hf => ?_, fun hf => ?_⟩
  · obtain ⟨ims, h⟩ := Java.resolved_ok package (history cs).walkImports
    have hg : mapGet i.name.text (Java.resolved package (history cs).walkImports).1 = some i.package.text ↔
        Chosen (package.map ItemStr.text) (inserted cs) i := by
      rw [h.get]
      have hm : ∀ e, e ∈ ims ↔ ∃ k, Chosen (package.map ItemStr.text) (inserted cs) k ∧ (k.package, k.name) = e := by
        intro e
        rw [Java.mem_ims _ _ h]
        simp only [Java.mem_keys, walk_mem]
        constructor
        · rintro ⟨⟨i, hi, rfl⟩, hf, hx⟩
          exact ⟨i, ⟨hi, hf, fun j hj hfj hn => hx _ ⟨j, hj, rfl⟩ hfj hn⟩, rfl⟩
        · rintro ⟨i, ⟨hi, hf, hx⟩, rfl⟩
          refine ⟨⟨i, hi, rfl⟩, hf, ?_⟩
          rintro _ ⟨j, hj, rfl⟩ hfj hn
          exact hx j hj hfj hn
      constructor
      · intro hmem
        obtain ⟨e, he, hpe⟩ := List.mem_map.1 hmem
        obtain ⟨k, hk, rfl⟩ := (hm e).1 he
        have ht : target k = target i := hpe
        have hst := hs k hk.1 i hi ht
        obtain ⟨h1, h2⟩ := Prod.mk.inj hst
        refine ⟨hi, hf, fun j hj hfj hn => ?_⟩
        rw [← h1, ← h2]
        exact hk.2.2 j hj hfj (by rw [h2]; exact hn)
      · intro hc
        exact List.mem_map.2 ⟨_, (hm _).2 ⟨i, hc, rfl⟩, rfl⟩
    show (i.format package (Java.resolved package (history cs).walkImports).1).flatten = _
    have h2 : package.map ItemStr.text ≠ some i.package.text := fun h => hf.2 h.symm
    have h1 : i.package.text ≠ Java.javaLangPkg := hf.1
    by_cases hc : Chosen (package.map ItemStr.text) (inserted cs) i
    · rw [if_pos hc]
      simp [Java.Import.format, hg.2 hc]
    · rw [if_neg hc]
      have := mt hg.1 hc
      simp [Java.Import.format, h1, h2, if_neg this]
  · show (i.format package (Java.resolved package (history cs).walkImports).1).flatten = _
    have : i.package.text = Java.javaLangPkg ∨ package.map ItemStr.text = some i.package.text := by
      by_contra h
      rw [not_or] at h
      exact hf ⟨h.1, fun h' => h.2 h'.symm⟩
    rcases this with h | h <;> simp [Java.Import.format, h]

theorem java_chosen_grow (package : Option Str) (a b : List Java.Import) (i : Java.Import) (h : i ∈ a) :
    Chosen package (a ++ b) i ↔ Chosen package a i ∧ ∀ j ∈ b, Foreign package (target j) → j.name.text = i.name.text →
      compare (i.package, i.name) (j.package, j.name) ≠ .gt := by
  constructor
  · rintro ⟨-, hf, hx⟩
    exact ⟨⟨h, hf, fun j hj => hx j (List.mem_append_left _ hj)⟩, fun j hj => hx j (List.mem_append_right _ hj)⟩
  · rintro ⟨⟨-, hf, hx⟩, hy⟩
    refine ⟨List.mem_append_left _ h, hf, fun j hj => ?_⟩
    rcases List.mem_append.1 hj with hj | hj
    · exact hx j hj
    · exact hy j hj

/-- C106. Exactly when adding code to a Java file changes how a reference that is there already is written, if the same
classes are stored alike: if the class was imported and a foreign class of the same name is added that comes before it. -/
theorem C106_java (package : Option ItemStr) (cs ds : List (Call Java.Import)) (hs : Stored (inserted (cs ++ ds)))
    (i : Java.Import) (hi : i ∈ inserted cs) :
    ((Java.lang package (history (cs ++ ds))).langItem i).flatten ≠ ((Java.lang package (history cs)).langItem i).flatten ↔
      Chosen (package.map ItemStr.text) (inserted cs) i ∧
      ∃ j ∈ inserted ds, j.name.text = i.name.text ∧ Foreign (package.map ItemStr.text) (target j) ∧
        compare (j.package, j.name) (i.package, i.name) = .lt := by
  have hsub : ∀ j ∈ inserted cs, j ∈ inserted (cs ++ ds) := fun j hj => by
    rw [grown]; exact List.mem_append_left _ hj
  have hs' : Stored (inserted cs) := fun a ha b hb => hs a (hsub a ha) b (hsub b hb)
  have w := java_written package (cs ++ ds) hs i (hsub i hi)
  have w' := java_written package cs hs' i hi
  classical
  by_cases hf : Foreign (package.map ItemStr.text) (target i)
  · rw [w.1 hf, w'.1 hf]
    have hgrow := java_chosen_grow (package.map ItemStr.text) (inserted cs) (inserted ds) i hi
    rw [← grown] at hgrow
    have hlen : i.name.text ≠ i.package.text ++ '.' :: i.name.text := fun h => by
      have := congrArg List.length h
      simp at this
      omega
    by_cases hc : Chosen (package.map ItemStr.text) (inserted cs) i
    · by_cases hx : ∀ j ∈ inserted ds, Foreign (package.map ItemStr.text) (target j) → j.name.text = i.name.text →
          compare (i.package, i.name) (j.package, j.name) ≠ .gt
      · rw [if_pos (hgrow.2 ⟨hc, hx⟩), if_pos hc]
        refine ⟨fun h => absurd rfl h, ?_⟩
        rintro ⟨-, j, hj, hn, hfj, hlt⟩
        exact absurd (Std.OrientedCmp.gt_of_lt hlt) (hx j hj hfj hn)
      · rw [if_neg fun h => hx (hgrow.1 h).2, if_pos hc]
        simp only [not_forall, not_not] at hx
        obtain ⟨j, hj, hfj, hn, hgt⟩ := hx
        exact ⟨fun _ => ⟨hc, j, hj, hn, hfj, Std.OrientedCmp.lt_of_gt hgt⟩, fun _ h => hlen h.symm⟩
    · rw [if_neg fun h => hc (hgrow.1 h).1, if_neg hc]
      exact ⟨fun h => absurd rfl h, fun h => absurd h.1 hc⟩
  · rw [w.2 hf, w'.2 hf]
    exact ⟨fun h => absurd rfl h, fun h => absurd h.1.2.1 hf⟩

/-- C106. For classes given as texts it is the texts that count. -/
theorem C106_java_worded (package : Option ItemStr) (cs ds : List (Call Java.Import))
    (hw : ∀ i ∈ inserted (cs ++ ds), i.Worded) (i : Java.Import) (hi : i ∈ inserted cs) :
    ((Java.lang package (history (cs ++ ds))).langItem i).flatten ≠ ((Java.lang package (history cs)).langItem i).flatten ↔
      Foreign (package.map ItemStr.text) (target i) ∧
      (∀ j ∈ inserted cs, j.name.text = i.name.text → Foreign (package.map ItemStr.text) (target j) →
        compare j.package.text i.package.text ≠ .lt) ∧
      ∃ j ∈ inserted ds, j.name.text = i.name.text ∧ Foreign (package.map ItemStr.text) (target j) ∧
        compare j.package.text i.package.text = .lt := by
  have hl : ∀ j ∈ inserted cs, j ∈ inserted (cs ++ ds) := fun j hj => by rw [grown]; exact List.mem_append_left _ hj
  have hr : ∀ j ∈ inserted ds, j ∈ inserted (cs ++ ds) := fun j hj => by rw [grown]; exact List.mem_append_right _ hj
  have hcmp : ∀ i ∈ inserted (cs ++ ds), ∀ j ∈ inserted (cs ++ ds), j.name.text = i.name.text →
      compare (i.package, i.name) (j.package, j.name) = compare i.package.text j.package.text := by
    intro i hi j hj h
    rw [(hw j hj).boxed.2.ext (hw i hi).boxed.2 h, compare_pair]
    rw [(hw i hi).boxed.1.compare (hw j hj).boxed.1, (hw i hi).boxed.2.compare (hw i hi).boxed.2]
    rw [Std.ReflCmp.compare_self (cmp := compare)]
    cases compare i.package.text j.package.text <;> rfl
  rw [C106_java package cs ds (fun i hi j hj h => by
    obtain ⟨h1, h2⟩ := Prod.mk.inj h
    rw [(hw i hi).boxed.1.ext (hw j hj).boxed.1 h1, (hw i hi).boxed.2.ext (hw j hj).boxed.2 h2]) i hi]
  constructor
  · rintro ⟨⟨-, hf, hx⟩, j, hj, hn, hfj, hlt⟩
    refine ⟨hf, fun k hk hkn hfk hlt' => hx k hk hfk hkn ?_, j, hj, hn, hfj, ?_⟩
    · rw [hcmp i (hl i hi) k (hl k hk) hkn]
      exact Std.OrientedCmp.gt_of_lt hlt'
    · rwa [hcmp j (hr j hj) i (hl i hi) hn.symm] at hlt
  · rintro ⟨hf, hx, j, hj, hn, hfj, hlt⟩
    refine ⟨⟨hi, hf, fun k hk hfk hkn h => hx k hk hkn hfk ?_⟩, j, hj, hn, hfj, ?_⟩
    · rw [hcmp i (hl i hi) k (hl k hk) hkn] at h
      exact Std.OrientedCmp.lt_of_gt h
    · rwa [hcmp j (hr j hj) i (hl i hi) hn.symm]

/-- C106. If no class that is added comes before one of the same name, no import goes, however classes are stored. -/
theorem C106_java_imports (package : Option ItemStr) (cfg : Config) (cs ds : List (Call Java.Import))
    (hb : losesSpace (Java.lang package (history cs)).langItem (history cs).items = false)
    (hb' : losesSpace (Java.lang package (history (cs ++ ds))).langItem (history (cs ++ ds)).items = false)
    (h : ∀ i ∈ inserted cs, ∀ j ∈ inserted ds, j.name.text = i.name.text →
      Foreign (package.map ItemStr.text) (target j) → compare (i.package, i.name) (j.package, j.name) ≠ .gt) :
    ∃ ims ims' : List (ItemStr × ItemStr), ims ⊆ ims' ∧
      toFileVec (Java.lang package (history cs)) cfg (Java.file package (history cs)) =
        (toVec (Java.lang package (history cs)) cfg (history cs).items).map (fileLines (paragraphs
          [(package.map (fun p => packageLine p.text)).toList,
           ims.map (fun e => importLine e.1.text e.2.text)])) ∧
      toFileVec (Java.lang package (history (cs ++ ds))) cfg (Java.file package (history (cs ++ ds))) =
        (toVec (Java.lang package (history (cs ++ ds))) cfg (history (cs ++ ds)).items).map (fileLines (paragraphs
          [(package.map (fun p => packageLine p.text)).toList,
           ims'.map (fun e => importLine e.1.text e.2.text)])) := by
  obtain ⟨ims, h1, -, h2⟩ := C42_chosen package cfg cs hb
  obtain ⟨ims', h1', -, h2'⟩ := C42_chosen package cfg (cs ++ ds) hb'
  refine ⟨ims, ims', fun e he => ?_, h1, h1'⟩
  obtain ⟨i, hc, rfl⟩ := (h2 e).1 he
  refine (h2' _).2 ⟨i, ?_, rfl⟩
  rw [grown, java_chosen_grow _ _ _ _ hc.1]
  exact ⟨hc, fun j hj hf hn => h i hc.1 j hj hn hf⟩

theorem java_format_ext (package : Option ItemStr) (a b : List (Str × Str)) (i : Java.Import)
    (h : (i.format package a).flatten = (i.format package b).flatten) : i.format package a = i.format package b := by
  have hlen : i.name.text ≠ i.package.text ++ '.' :: i.name.text := fun h => by
    have := congrArg List.length h
    simp at this
    omega
  unfold Java.Import.format at h ⊢
  split <;> split <;> rename_i h1 h2
  · rfl
  · rw [if_pos h1, if_neg h2] at h
    exact absurd (by simpa using h.symm) hlen
  · rw [if_neg h1, if_pos h2] at h
    exact absurd (by simpa using h) hlen
  · rfl

/-- C106. If no class that is added comes before one of the same name, the lines of the body stay as they are, the last
of them being continued. -/
theorem C106_java_body (package : Option ItemStr) (cfg : Config) (cs ds : List (Call Java.Import))
    (hs : Stored (inserted (cs ++ ds)))
    (h : ∀ i ∈ inserted cs, ∀ j ∈ inserted ds, j.name.text = i.name.text →
      Foreign (package.map ItemStr.text) (target j) → compare (j.package, j.name) (i.package, i.name) ≠ .lt)
    (f : MFrame) (fs : List MFrame) (hc : marks (history cs).items = some [f :: fs]) (hf : f.isEval = false) :
    ∃ init last, toVec (Java.lang package (history cs)) cfg (history cs).items = some (init ++ [last]) ∧
      ∀ ls, toVec (Java.lang package (history (cs ++ ds))) cfg (history (cs ++ ds)).items = some ls →
        ∃ more rest, ls = init ++ (last ++ more) :: rest := by
  have he : toVec (Java.lang package (history (cs ++ ds))) cfg (history cs).items =
      toVec (Java.lang package (history cs)) cfg (history cs).items :=
    toVec_items_congr _ (Java.lang package (history cs)).langItem cfg _ fun n i hi => by
      have hi := lang_inserted cs n i hi
      refine java_format_ext package _ _ i ?_
      by_contra hne
      obtain ⟨-, j, hj, hn, hfj, hlt⟩ := (C106_java package cs ds hs i hi).1 hne
      exact h i hi j hj hn hfj hlt
  rw [← he]
  exact C107_lines _ cfg cs ds f fs hc hf

/-- A class whose package comes first takes the name from one that was imported; and the same class stored otherwise
takes it back. -/
theorem C106_java_witness :
    let i : Java.Import := ⟨.static "b".toList, .static "X".toList⟩
    let j : Java.Import := ⟨.static "a".toList, .static "X".toList⟩
    let k : Java.Import := ⟨.box "b".toList, .static "X".toList⟩
    ((Java.lang none (history [.appendLang i])).langItem i).flatten = "X".toList ∧
    ((Java.lang none (history [.appendLang i, .appendLang j])).langItem i).flatten = "b.X".toList ∧
    ((Java.lang none (history [.appendLang i, .appendLang j, .appendLang k])).langItem i).flatten = "X".toList := by
  refine ⟨?_, ?_, ?_⟩ <;> decide +kernel

/-- A class to which code is added. -/
def grownJava : List (Call Java.Import) :=
  [.appendLang (Java.import_ (Wording.str "java.util".toList).into (Wording.str "List".toList).into), .space,
   .appendLang (Java.import_ (Wording.str "java.util".toList).into (Wording.str "Map".toList).into)]

/-- What is added: one class takes its name, one does not. -/
def grownJava' : List (Call Java.Import) :=
  [.push, .appendLang (Java.import_ (Wording.str "java.awt".toList).into (Wording.str "List".toList).into), .space,
   .appendLang (Java.import_ (Wording.str "my".toList).into (Wording.str "Map".toList).into)]

example : toFileVec (Java.lang none (history grownJava)) ⟨.space 4, ['\n']⟩ (Java.file none (history grownJava)) =
    some ["import java.util.List;".toList, "import java.util.Map;".toList, [], "List Map".toList] := by decide +kernel

example : toFileVec (Java.lang none (history (grownJava ++ grownJava'))) ⟨.space 4, ['\n']⟩
      (Java.file none (history (grownJava ++ grownJava'))) =
    some ["import java.awt.List;".toList, "import java.util.Map;".toList, [], "java.util.List Map".toList,
      "List my.Map".toList] := by decide +kernel

example : ∀ i ∈ inserted (grownJava ++ grownJava'), i.Worded := by
  intro i hi
  simp [inserted, grownJava, grownJava', callItems, langOf] at hi
  rcases hi with rfl | rfl | rfl | rfl <;> exact ⟨_, _, rfl⟩

/-- Only the class that keeps its name is added: the imports stay. -/
example : ∀ i ∈ inserted grownJava, ∀ j ∈ inserted (grownJava'.drop 2), j.name.text = i.name.text →
    Foreign none (target j) → compare (i.package, i.name) (j.package, j.name) ≠ .gt := by
  intro i hi j hj
  simp [inserted, grownJava, grownJava', callItems, langOf] at hi hj
  subst hj
  rcases hi with rfl | rfl <;> intro h <;> first | (exact absurd h (by decide)) | (intro; decide)

end

end Genco.Props
