import Verif.Model.Solo
import Verif.Props.Java
import Verif.Props.Csharp
import Verif.Props.Nix
import Verif.Props.Rust
import Verif.Props.Programs

/-!
# C105: streams rendered on their own, in Java and C#
-/

set_option autoImplicit false

namespace Genco.Props

open Genco Spec

section

variable {ι : Type}

/-- Languages that differ only in how they write imports that are not in the stream write it alike. -/
theorem resolve_items_congr (L : Lang ι) (f : ι → List Str) (cfg : Config) (fuel : Nat) : ∀ (e : Bool) (st : List Frame)
    (items : List (Item ι)), (∀ n i, Item.lang n i ∈ items → L.langItem i = f i) →
    resolve L cfg fuel e st items = resolve { L with langItem := f } cfg fuel e st items ∧
      ∀ rest, (resolve L cfg fuel e st items).2 = some rest → ∀ x ∈ rest, x ∈ items := by
  induction fuel with
  | zero => intro e st items _; exact ⟨rfl, by rintro rest h; cases h; exact fun x hx => hx⟩
  | succ fuel ih =>
    intro e st items h
    cases items with
    | nil => exact ⟨rfl, by rintro rest h; cases h; exact fun x hx => hx⟩
    | cons i rest =>
      have hr : ∀ n i, Item.lang n i ∈ rest → L.langItem i = f i := fun n i hm => h n i (List.mem_cons_of_mem _ hm)
      cases st with
      | nil => exact ⟨rfl, by rintro r h; cases h; exact fun x hx => List.mem_cons_of_mem _ hx⟩
      | cons head st =>
        have step : ∀ (a : List Act) (e : Bool) (st : List Frame) (r : List (Item ι)), (∀ x ∈ r, x ∈ rest) →
            pre a (resolve L cfg fuel e st r) = pre a (resolve { L with langItem := f } cfg fuel e st r) ∧
            ∀ q, (pre a (resolve L cfg fuel e st r)).2 = some q → ∀ x ∈ q, x ∈ i :: rest := by
          intro a e st r hs
          have := ih e st r (fun n j hm => hr n j (hs _ hm))
          exact ⟨by rw [this.1], fun q hq x hx => List.mem_cons_of_mem _ (hs _ (this.2 q hq x hx))⟩
        have stay : ∀ (e : Bool) (st : List Frame),
            resolve L cfg fuel e st rest = resolve { L with langItem := f } cfg fuel e st rest ∧
            ∀ q, (resolve L cfg fuel e st rest).2 = some q → ∀ x ∈ q, x ∈ i :: rest := by
          intro e st
          have := ih e st rest hr
          exact ⟨this.1, fun q hq x hx => List.mem_cons_of_mem _ (this.2 q hq x hx)⟩
        have bad : (([], none) : List Act × Option (List (Item ι))) = ([], none) ∧
            ∀ q, (([], none) : List Act × Option (List (Item ι))).2 = some q → ∀ x ∈ q, x ∈ i :: rest :=
          ⟨rfl, nofun⟩
        cases i with
        | register n j => exact stay e _
        | literal s => exact step _ e _ rest (fun x hx => hx)
        | openQuote ev =>
          simp only [resolve]
          split
          · exact step _ e _ rest (fun x hx => hx)
          · split
            · have hin := ih true [Frame.default] rest hr
              rw [← hin.1]
              cases hq : (resolve L cfg fuel true [Frame.default] rest).2 with
              | none => exact bad
              | some rest' => exact step _ e _ rest' (hin.2 rest' hq)
            · exact bad
        | closeQuote =>
          simp only [resolve]
          split
          · exact ⟨rfl, by rintro r h; cases h; exact fun x hx => List.mem_cons_of_mem _ hx⟩
          · split
            · exact step _ e _ rest (fun x hx => hx)
            · exact bad
        | lang n j =>
          simp only [resolve]
          have := step (texts (L.langItem j)) e (head :: st) rest (fun x hx => hx)
          rw [h n j (List.mem_cons_self ..)] at this ⊢
          exact this
        | push => exact step _ e _ rest (fun x hx => hx)
        | line => exact step _ e _ rest (fun x hx => hx)
        | space => exact step _ e _ rest (fun x hx => hx)
        | indentation n =>
          simp only [resolve]
          split
          · exact stay e _
          · exact step _ e _ rest (fun x hx => hx)
        | openEval =>
          simp only [resolve]
          split
          · split
            · exact step _ e _ _ (fun x hx => List.mem_cons_of_mem _ (List.mem_cons_of_mem _ hx))
            · exact step _ e _ rest (fun x hx => hx)
          · exact bad
        | closeEval =>
          simp only [resolve]
          split
          · exact step _ e _ rest (fun x hx => hx)
          · exact bad

theorem toVec_items_congr (L : Lang ι) (f : ι → List Str) (cfg : Config) (items : List (Item ι))
    (h : ∀ n i, Item.lang n i ∈ items → L.langItem i = f i) :
    toVec L cfg items = toVec { L with langItem := f } cfg items := by
  have := (resolve_items_congr L f cfg items.length false [Frame.default] items h).1
  rw [toVec_eq, toVec_eq, resolveItems, resolveItems, this]

theorem lang_inserted (cs : List (Call ι)) (n : Nat) (i : ι) (h : Item.lang n i ∈ (history cs).items) : i ∈ inserted cs := by
  have h1 : erase (Item.lang n i) ∈ content cs := by
    rw [← C05_content]
    exact List.mem_map_of_mem (List.mem_filter.2 ⟨h, rfl⟩)
  obtain ⟨x, hx, he⟩ := List.mem_map.1 h1
  have hx := (List.mem_filter.1 hx).1
  cases x <;> simp [erase] at he
  subst he
  exact List.mem_filterMap.2 ⟨_, hx, rfl⟩

end

/-! ## Java -/

section

open Spec.JavaFile

/-- C105. Exactly how a class is written on its own in Java: in full, but for classes of `java.lang` and
of the package that is configured. -/
theorem C105_java_written (package : Option ItemStr) (i : Java.Import) :
    ((Java.soloLang package).langItem i).flatten =
      if Foreign (package.map ItemStr.text) (target i) then i.package.text ++ '.' :: i.name.text else i.name.text := by
  show (i.format package []).flatten = _
  have hd : langPackage = Java.javaLangPkg := rfl
  by_cases h1 : i.package.text = Java.javaLangPkg
  · rw [if_neg fun hf => hf.1 h1]
    simp [Java.Import.format, h1]
  · by_cases h2 : package.map ItemStr.text = some i.package.text
    · rw [if_neg fun hf => hf.2 h2.symm]
      simp [Java.Import.format, h2]
    · rw [if_pos ⟨h1, Ne.symm h2⟩]
      simp [Java.Import.format, h1, h2, mapGet]

theorem denotes_simple {s : Scope} {ref p n : Str} (h : Denotes s ref p n) (hd : '.' ∉ ref) :
    (∀ q, (q, n) ∈ s.imports → q = p) ∧ ((p, n) ∈ s.imports ∨ s.own = p ∨ ¬ s.classes s.own n) := by
  cases h with
  | imported _ _ _ hi hu => exact ⟨hu, .inl hi⟩
  | own _ _ hi _ => exact ⟨fun q hq => absurd hq (hi q), .inr (.inl rfl)⟩
  | lang _ _ hi ho => exact ⟨fun q hq => absurd hq (hi q), .inr (.inr ho)⟩
  | full => exact absurd hd (by simp)

/-- C105. What the text of `to_string` means when it is put into any file, with any package and any imports:
every class is named as asked for, but for classes of `java.lang` whose simple name is taken there by an import
or by a class of the package of the file. -/
theorem C105_java (i : Java.Import) (s : Scope) (hp : Proper s.classes i) :
    Denotes s ((Java.soloLang Java.defaultPackage).langItem i).flatten i.package.text i.name.text ↔
      (i.package.text = langPackage →
        (∀ p, (p, i.name.text) ∈ s.imports → p = langPackage) ∧
        ((langPackage, i.name.text) ∈ s.imports ∨ s.own = langPackage ∨ ¬ s.classes s.own i.name.text)) := by
  obtain ⟨hn, hne, hc⟩ := hp
  rw [C105_java_written]
  by_cases h : i.package.text = langPackage
  · have hf : ¬ Foreign (Java.defaultPackage.map ItemStr.text) (target i) := fun hf => hf.1 h
    rw [h] at hc
    rw [if_neg hf, h]
    simp only [forall_const]
    constructor
    · exact fun hd => denotes_simple hd hn
    · rintro ⟨hu, h'⟩
      by_cases hi : (langPackage, i.name.text) ∈ s.imports
      · exact .imported _ _ hn hi hu
      · have hi' : ∀ p, (p, i.name.text) ∉ s.imports := fun p hp => hi (hu p hp ▸ hp)
        by_cases ho : s.own = langPackage
        · rw [← ho]; exact .own _ hn hi' (ho ▸ hc)
        · rcases h' with h' | h' | h'
          · exact absurd h' hi
          · exact absurd h' ho
          · exact .lang _ hn hi' h' hc
  · have hf : Foreign (Java.defaultPackage.map ItemStr.text) (target i) := ⟨h, by simp [Java.defaultPackage]⟩
    rw [if_pos hf]
    exact ⟨fun _ h' => absurd h' h, fun _ => .full _ _ hn hc⟩

/-- C105. `to_file_vec` and `to_vec` write the same where nothing has to be imported: if all classes are of
`java.lang` the file is the text on its own. -/
theorem C105_java_file (cs : List (Call Java.Import))
    (hb : losesSpace (Java.lang none (history cs)).langItem (history cs).items = false)
    (h : ∀ i ∈ inserted cs, i.package.text = langPackage) :
    Java.wholeFile (history cs) = Java.snippet (history cs) := by
  obtain ⟨hd, h1, h2⟩ := C51_java none .fromLang cs hb
  have hnil : hd = [] := h2.2 fun i hi hf => hf.1 (h i hi)
  subst hnil
  show toFileVec (Java.lang none (history cs)) .fromLang (Java.file none (history cs)) =
    toVec (Java.soloLang none) .fromLang (history cs).items
  rw [h1]
  have h3 : toVec (Java.lang none (history cs)) .fromLang (history cs).items =
      toVec (Java.soloLang none) .fromLang (history cs).items :=
    toVec_items_congr _ (Java.Import.format none []) _ _ (by
      intro n i hi
      have := h i (lang_inserted cs n i hi)
      show Java.Import.format none _ i = _
      have hd : langPackage = Java.javaLangPkg := rfl
      simp [Java.Import.format, this, hd])
  rw [h3]
  have : paragraphs [((none : Option ItemStr).map fun p => packageLine p.text).toList, []] = [] := rfl
  rw [this]
  cases toVec (Java.soloLang none) .fromLang (history cs).items <;> simp [fileLines]

/-- A class that is imported in the file is written in full on its own. -/
theorem C105_java_differs :
    let t := history [Call.appendLang (⟨.static "java.io".toList, .static "A".toList⟩ : Java.Import), .space,
      .appendLang ⟨.static "java.lang".toList, .static "Integer".toList⟩]
    Java.snippet t = some ["java.io.A Integer".toList] ∧
    Java.wholeFile t = some ["import java.io.A;".toList, [], "A Integer".toList] := by
  refine ⟨?_, ?_⟩ <;> decide +kernel

example : let t := history [Call.appendLang (⟨.static "java.lang".toList, .static "Integer".toList⟩ : Java.Import), .line,
      .append (.literal (.static "x".toList))]
    losesSpace (Java.lang none t).langItem t.items = false ∧
    Java.snippet t = some ["Integer".toList, [], "x".toList] := by
  refine ⟨?_, ?_⟩ <;> decide +kernel

end

/-! ## C# -/

section

open Spec.CsharpFile

/-- C105. Exactly how a type is written on its own in C#: without namespace, unless it is asked for. -/
theorem C105_csharp_written (ns : Option ItemStr) (i : Csharp.Import) :
    ((Csharp.soloLang ns).langItem i).flatten =
      if i.qualified = true then i.ns.text ++ '.' :: i.name.text else i.name.text := by
  show (i.format ns []).flatten = _
  unfold Csharp.Import.format Csharp.isQualified
  cases i.qualified <;> by_cases h : ns.map ItemStr.text = some i.ns.text <;> simp [h, mapGet]

theorem denotes_bare' {s : Scope} {ref p n : Str} (h : Denotes s ref p n) (hd : '.' ∉ ref) :
    (Encloses s.namespace_ p ∧ ∀ q, Encloses s.namespace_ q → s.types q n → q.length ≤ p.length) ∨
    ((∀ q, Encloses s.namespace_ q → ¬ s.types q n) ∧ p ∈ s.usings ∧ ∀ q ∈ s.usings, s.types q n → q = p) := by
  cases h with
  | around _ _ _ he _ hi => exact .inl ⟨he, fun q hq ht => Nat.le_of_not_lt fun hl => hi q hq hl ht⟩
  | used _ _ _ ha hm _ hu => exact .inr ⟨ha, hm, hu⟩
  | full => exact absurd hd (by simp)

/-- C105. What the text of `to_string` means when it is put into any file: a type is named as asked for exactly if it
is asked for with its namespace, or its bare name means it in that file. -/
theorem C105_csharp_partial (i : Csharp.Import) (s : Scope) (hp : Proper s.types i) :
    Denotes s ((Csharp.soloLang Csharp.defaultNs).langItem i).flatten i.ns.text i.name.text ↔
      (i.qualified = false →
        (Encloses s.namespace_ i.ns.text ∧
          ∀ ns, Encloses s.namespace_ ns → s.types ns i.name.text → ns.length ≤ i.ns.text.length) ∨
        ((∀ ns, Encloses s.namespace_ ns → ¬ s.types ns i.name.text) ∧ i.ns.text ∈ s.usings ∧
          ∀ ns ∈ s.usings, s.types ns i.name.text → ns = i.ns.text)) := by
  obtain ⟨hn, hne, hc⟩ := hp
  rw [C105_csharp_written]
  cases hq : i.qualified with
  | true => simpa using Denotes.full _ _ hn hc
  | false =>
    simp only [Bool.false_eq_true, if_false, forall_const]
    constructor
    · exact fun hd => denotes_bare' hd hn
    · rintro (⟨he, h⟩ | ⟨ha, hm, hu⟩)
      · exact .around _ _ hn he hc fun q hq hl ht => absurd (h q hq ht) (Nat.not_le.2 hl)
      · exact .used _ _ hn ha hm hc hu

/-- C105. In C# the text on its own does not tell types of one name apart, so it cannot name both in any file. -/
theorem C105_csharp_negative (i j : Csharp.Import) (hi : i.qualified = false) (hj : j.qualified = false)
    (hn : i.name.text = j.name.text) (hd : i.ns.text ≠ j.ns.text) (s : Scope) :
    ((Csharp.soloLang Csharp.defaultNs).langItem i).flatten = ((Csharp.soloLang Csharp.defaultNs).langItem j).flatten ∧
    ¬ (Denotes s ((Csharp.soloLang Csharp.defaultNs).langItem i).flatten i.ns.text i.name.text ∧
      Denotes s ((Csharp.soloLang Csharp.defaultNs).langItem j).flatten j.ns.text j.name.text) := by
  have he : ((Csharp.soloLang Csharp.defaultNs).langItem i).flatten =
      ((Csharp.soloLang Csharp.defaultNs).langItem j).flatten := by
    rw [C105_csharp_written, C105_csharp_written, hi, hj, hn]; rfl
  refine ⟨he, fun ⟨h1, h2⟩ => hd ?_⟩
  rw [← he] at h2
  exact (Csharp.denotes_unique h1 h2).1

/-- C105. Where no type name is used with two namespaces, the file of `to_file_vec` is the lines of `to_vec` below
the lines with `using`. -/
theorem C105_csharp_file (cs : List (Call Csharp.Import))
    (hb : losesSpace (Csharp.lang none (history cs)).langItem (history cs).items = false)
    (h : ∀ i ∈ inserted cs, ∀ j ∈ inserted cs, i.name.text = j.name.text → i.ns.text = j.ns.text) :
    ∃ us : List Str, Csharp.wholeFile (history cs) = (Csharp.snippet (history cs)).map (fileLines (us.map usingLine)) ∧
      Sorted us ∧ ∀ u, u ∈ us ↔ ∃ i ∈ inserted cs, i.ns.text = u := by
  obtain ⟨us, h1, h2, h3⟩ := C43_header none .fromLang cs (fun _ => hb)
  have hch : ∀ i ∈ inserted cs, Chosen (Option.map ItemStr.text none) ((inserted cs).map target) i.ns.text i.name.text := by
    intro i hi
    refine ⟨List.mem_map.2 ⟨i, hi, rfl⟩, by simp, fun ns' hm _ => ?_⟩
    obtain ⟨j, hj, he⟩ := List.mem_map.1 hm
    obtain ⟨rfl, hn⟩ := Prod.mk.inj he
    exact .inl (h j hj i hi hn)
  refine ⟨us, ?_, h2, fun u => (h3 u).trans ⟨?_, ?_⟩⟩
  · show toFileVec (Csharp.lang none (history cs)) .fromLang (Csharp.file none (history cs)) =
      (toVec (Csharp.soloLang none) .fromLang (history cs).items).map _
    rw [h1]
    have : toVec (Csharp.lang none (history cs)) .fromLang (history cs).items =
        toVec (Csharp.soloLang none) .fromLang (history cs).items :=
      toVec_items_congr _ (Csharp.Import.format none []) _ _ (by
        intro n i hi
        have hi := lang_inserted cs n i hi
        have hq := C43_qualified none cs i hi
        have hs := C105_csharp_written none i
        show Csharp.Import.format none _ i = _
        replace hq : (Csharp.Import.format none _ i).flatten = _ := hq
        replace hs : (Csharp.Import.format none [] i).flatten = _ := hs
        cases hqu : i.qualified with
        | true => simp [Csharp.Import.format, hqu]
        | false =>
          rw [if_pos ⟨hqu, .inr (hch i hi)⟩] at hq
          unfold Csharp.Import.format at hq ⊢
          split at hq
          · have := congrArg List.length hq
            simp at this
            omega
          · rename_i hx
            rw [if_neg hx, if_neg (by simp [hqu, Csharp.isQualified, mapGet])])
    rw [show inNamespace none (history cs) = (history cs).items from rfl, this]
  · rintro ⟨n, hc⟩
    obtain ⟨i, hi, he⟩ := List.mem_map.1 hc.1
    exact ⟨i, hi, congrArg Prod.fst he⟩
  · rintro ⟨i, hi, rfl⟩
    exact ⟨i.name.text, hch i hi⟩

/-- Two types of one name: told apart in the file, not on their own. -/
theorem C105_csharp_differs :
    let t := history [Call.appendLang (⟨.static "Foo.Bar".toList, .static "B".toList, false⟩ : Csharp.Import), .space,
      .appendLang ⟨.static "Foo.Baz".toList, .static "B".toList, false⟩]
    Csharp.snippet t = some ["B B".toList] ∧
    Csharp.wholeFile t = some ["using Foo.Bar;".toList, [], "B Foo.Baz.B".toList] := by
  refine ⟨?_, ?_⟩ <;> decide +kernel

example : let cs := [Call.appendLang (⟨.static "Foo".toList, .static "A".toList, false⟩ : Csharp.Import), .line,
      .appendLang ⟨.static "Foo".toList, .static "B".toList, true⟩]
    losesSpace (Csharp.lang none (history cs)).langItem (history cs).items = false ∧
    Csharp.snippet (history cs) = some ["A".toList, [], "Foo.B".toList] ∧
    Csharp.wholeFile (history cs) = some ["using Foo;".toList, [], "A".toList, [], "Foo.B".toList] ∧
    (∀ i ∈ inserted cs, ∀ j ∈ inserted cs, i.name.text = j.name.text → i.ns.text = j.ns.text) := by
  refine ⟨?_, ?_, ?_, ?_⟩ <;> decide +kernel

end

/-! ## Configurations of languages -/

section

open Rust

/-- An import with the mode that it asks for, or else with the one given. -/
def settle (mode : Mode) (i : Import) : Import :=
  match i.module with
  | .module none p => { i with module := .module (some mode) p }
  | _ => i

/-- C105. Configuring a mode for the imports of a Rust file is asking for it at every import that does not ask for one:
references and declarations are the same as for these imports, whatever is configured then. Imports without alias
ask for a mode with `direct` and `qualified`. The default is `direct`. -/
theorem C105_rust_mode (c d : Cfg) (mode : Mode) (l : List Import) (i : Import) (m n : ItemStr) :
    ((Rust.lang (withDefaultImport c mode)).langItem i = (Rust.lang d).langItem (settle mode i)) ∧
    importCalls (withDefaultImport c mode) l = importCalls d (l.map (settle mode)) ∧
    settle .direct (import_ m n) = (import_ m n).direct ∧ settle .qualified (import_ m n) = (import_ m n).qualified ∧
    ((Rust.lang defaultCfg).langItem (import_ m n)).flatten = n.text ∧
    ∀ a, ((Rust.lang defaultCfg).langItem ((import_ m n).withAlias a)).flatten = a.text := by
  refine ⟨?_, ?_, rfl, rfl, ?_, ?_⟩
  · show Import.format mode i = Import.format d (settle mode i)
    obtain ⟨md, n, a⟩ := i
    rcases md with ⟨_ | _ | _, p⟩ | ⟨p, a⟩ <;> cases mode <;> rfl
  · have hm : modules mode l = modules d (l.map (settle mode)) := by
      unfold modules
      rw [List.foldl_map]
      congr 1
      funext m i
      obtain ⟨md, n, a⟩ := i
      rcases md with ⟨_ | _ | _, p⟩ | ⟨p, a⟩ <;> cases mode <;> rfl
    show importCalls mode l = _
    unfold importCalls
    rw [hm]
  · show (Import.format .direct (import_ m n)).flatten = _
    simp [Import.format, import_, Import.writeDirect]
  · intro a
    show (Import.format .direct ((import_ m n).withAlias a)).flatten = _
    simp [Import.format, import_, Import.withAlias, Mod.direct, Import.writeDirect]

end

/-- C105. The lines the other configurations bring about, behind any history of calls: without a package no line, with
one its line, the package set last; a Nix file has a head by default, and with `with_scoped(true)` only if there is
something to declare in it. -/
theorem C105_settings (cfg : Config) (old : Option ItemStr) (p : ItemStr) :
    (∀ cs : List (Call Go.Import), losesSpace Go.lang.langItem (history cs).items = false → inserted cs = [] →
      toFileVec Go.lang cfg (Go.file Go.defaultPackage (history cs)) = toVec Go.lang cfg (history cs).items ∧
      toFileVec Go.lang cfg (Go.file (Go.withPackage old p) (history cs)) =
        (toVec Go.lang cfg (history cs).items).map (fileLines [GoFile.packageLine p.text])) ∧
    (∀ cs : List (Call Java.Import), inserted cs = [] →
      losesSpace (Java.lang Java.defaultPackage (history cs)).langItem (history cs).items = false →
      toFileVec (Java.lang Java.defaultPackage (history cs)) cfg (Java.file Java.defaultPackage (history cs)) =
        toVec (Java.lang Java.defaultPackage (history cs)) cfg (history cs).items) ∧
    (∀ cs : List (Call Java.Import), inserted cs = [] →
      losesSpace (Java.lang (Java.withPackage old p) (history cs)).langItem (history cs).items = false →
      toFileVec (Java.lang (Java.withPackage old p) (history cs)) cfg (Java.file (Java.withPackage old p) (history cs)) =
        (toVec (Java.lang (Java.withPackage old p) (history cs)) cfg (history cs).items).map
          (fileLines [JavaFile.packageLine p.text])) ∧
    (∀ (cs : List (Call Nix.Import)) (was : Bool), losesSpace Nix.lang.langItem (history cs).items = false →
      inserted cs = [] →
      toFileVec Nix.lang cfg (Nix.file (Nix.withScoped was true) (history cs)) = toVec Nix.lang cfg (history cs).items ∧
      ∃ hd, hd ≠ [] ∧ toFileVec Nix.lang cfg (Nix.file Nix.defaultScoped (history cs)) =
        (toVec Nix.lang cfg (history cs).items).map (fileLines hd) ∧
        toFileVec Nix.lang cfg (Nix.file (Nix.withScoped was false) (history cs)) =
          (toVec Nix.lang cfg (history cs).items).map (fileLines hd)) := by
  have hid : ∀ r : Option (List Str), r.map (fileLines []) = r := by
    intro r; cases r <;> simp [fileLines]
  refine ⟨fun cs hb hi => ⟨?_, ?_⟩, fun cs hi hb => ?_, fun cs hi hb => ?_, fun cs was hb hi => ⟨?_, ?_⟩⟩
  · obtain ⟨hd, h1, h2⟩ := C51_go none cfg cs hb
    rw [h2.2 hi] at h1
    exact h1.trans (hid _)
  · obtain ⟨hd, h1, h2⟩ := C51_go (some p) cfg cs hb
    rw [h2.2 hi] at h1
    exact h1
  · obtain ⟨hd, h1, h2⟩ := C51_java none cfg cs hb
    rw [h2.2 (by simp [hi])] at h1
    exact h1.trans (hid _)
  · obtain ⟨hd, h1, h2⟩ := C51_java (some p) cfg cs hb
    rw [h2.2 (by simp [hi])] at h1
    exact h1
  · obtain ⟨hd, h1, h2⟩ := C51_nix_partial cfg true cs hb (by rw [hi]; intro a b h; cases h)
    rw [h2.2 ⟨rfl, by simp [hi]⟩] at h1
    exact h1.trans (hid _)
  · obtain ⟨hd, h1, h2⟩ := C51_nix_partial cfg false cs hb (by rw [hi]; intro a b h; cases h)
    exact ⟨hd, fun h => absurd (h2.1 h).1 (by simp), h1, h1⟩

/-- C105. In C# the namespace set last is around the lines of a program, and by default none is. -/
theorem C105_csharp_settings (cfg : Config) (old : Option ItemStr) (n : ItemStr) (p : Program Csharp.Import)
    (hi : p.imports = []) :
    (p.Ok (Csharp.lang Csharp.defaultNs (history p.calls)) cfg →
      toFileVec (Csharp.lang Csharp.defaultNs (history p.calls)) cfg (Csharp.file Csharp.defaultNs (history p.calls)) =
        some (p.lines cfg)) ∧
    (p.Ok (Csharp.lang (Csharp.withNamespace old n) (history p.calls)) cfg →
      toFileVec (Csharp.lang (Csharp.withNamespace old n) (history p.calls)) cfg
          (Csharp.file (Csharp.withNamespace old n) (history p.calls)) =
        some (CsharpFile.namespaceLine n.text :: (p.lines cfg).map (movedIn cfg 1) ++ ["}".toList])) := by
  have none_used : ∀ (o : Option Str) (us : List Str),
      (∀ u, u ∈ us ↔ ∃ m, CsharpFile.Chosen o (p.imports.map CsharpFile.target) u m) → us = [] := by
    intro o us h
    refine List.eq_nil_iff_forall_not_mem.2 fun u hu => ?_
    obtain ⟨m, hm, -⟩ := (h u).1 hu
    rw [hi] at hm
    cases hm
  refine ⟨fun hp => ?_, fun hp => ?_⟩
  · obtain ⟨us, h1, -, h2⟩ := C112_csharp cfg p hp
    rw [none_used _ us h2] at h1
    exact h1
  · obtain ⟨us, h1, -, h2⟩ := C112_csharp_namespace n cfg p hp
    rw [none_used _ us h2] at h1
    exact h1

/-- A class in the namespace that was set last. -/
example : let p : Program Csharp.Import := .leaf [.append (.literal (.static "class A {}".toList))] ["class A {}".toList]
    toFileVec (Csharp.lang (Csharp.withNamespace (some (.static "M".toList)) (.static "N".toList)) (history p.calls))
      Config.fromLang (Csharp.file (Csharp.withNamespace (some (.static "M".toList)) (.static "N".toList)) (history p.calls)) =
      some ["namespace N {".toList, "    class A {}".toList, "}".toList] :=
  (C105_csharp_settings .fromLang (some (.static "M".toList)) (.static "N".toList) _ rfl).2
    ⟨line_own _ [] _ rfl (by decide) (by decide) (by decide) (by decide +kernel) (by decide), by decide +kernel⟩

example : let cs : List (Call Go.Import) := [.append (.literal (.static "x".toList)), .push, .append (.literal (.static "y".toList))]
    losesSpace Go.lang.langItem (history cs).items = false ∧ inserted cs = [] ∧
    toFileVec Go.lang Config.fromLang (Go.file (Go.withPackage Go.defaultPackage (.static "p".toList)) (history cs)) =
      some ["package p".toList, [], "x".toList, "y".toList] := by
  refine ⟨?_, ?_, ?_⟩ <;> decide +kernel

/-- Two modes for one import. -/
example : let i := Rust.import_ (.static "std::fmt".toList) (.static "Debug".toList)
    ((Rust.lang Rust.defaultCfg).langItem i).flatten = "Debug".toList ∧
    ((Rust.lang (Rust.withDefaultImport Rust.defaultCfg .qualified)).langItem i).flatten = "fmt::Debug".toList := by
  refine ⟨?_, ?_⟩ <;> decide +kernel

end Genco.Props
