import Mathlib.Data.List.Nodup
import Verif.Proofs.Nix
import Verif.Props.Js

/-!
# Properties of Nix files (C48 and parts of C49–C51)
-/

set_option autoImplicit false

namespace Genco.Props

open Genco Spec Spec.NixFile Nix

theorem starts_at (p a : Str) : StartsAt p a ↔ a = firstSeg1 '.' p := by
  unfold firstSeg1
  constructor
  · rintro ⟨h, h' | ⟨r, h'⟩⟩
    · subst h'
      have := List.takeWhile_append_of_pos (p := fun c => decide (c ≠ '.')) (l₁ := p) (l₂ := [])
        (fun x hx => by simpa using (fun e => h (e ▸ hx) : x ≠ '.'))
      simpa using this.symm
    · subst h'
      rw [List.takeWhile_append_of_pos]
      · simp
      · intro x hx
        simpa using (fun e => h (e ▸ hx) : x ≠ '.')
  · rintro rfl
    induction p with
    | nil => exact ⟨by simp, .inl rfl⟩
    | cons c p ih =>
      rw [List.takeWhile_cons]
      by_cases hc : c = '.'
      · subst hc
        exact ⟨by simp, .inr ⟨p, by simp⟩⟩
      · simp only [ne_eq, hc, not_false_eq_true, decide_true, if_true]
        obtain ⟨h1, h2⟩ := ih
        refine ⟨?_, ?_⟩
        · intro h
          rcases List.mem_cons.1 h with h | h
          · exact hc h.symm
          · exact h1 (by simpa using h)
        · rcases h2 with h2 | ⟨r, h2⟩
          · exact .inl (congrArg (c :: ·) h2)
          · exact .inr ⟨r, congrArg (c :: ·) h2⟩

/-- Imports whose arguments and bindings the header has: the ones of the body, and
the arguments and inherits of the values of its variables. -/
def Seen (cs : List (Call Nix.Import)) (i : Nix.Import) : Prop :=
  i ∈ inserted cs ∨ (∃ n v, Import.variable n v ∈ inserted cs ∧ Occurs i v) ∧
    ((∃ n, i = .argument n) ∨ ∃ p n, i = .inherit p n)

theorem mem_arguments (cfg : Config) (cs : List (Call Nix.Import)) (hv : Exprs cfg (inserted cs)) (a : Str) :
    a ∈ (history cs).walkImports.flatMap argumentsOf ↔ ∃ i, Seen cs i ∧ NeedsArg a i := by
  simp only [List.mem_flatMap, walk_mem]
  constructor
  · rintro ⟨i, hi, ha⟩
    cases i with
    | argument n => exact ⟨_, .inl hi, by simpa [argumentsOf, NeedsArg] using ha⟩
    | «inherit» p n => exact ⟨_, .inl hi, (starts_at _ _).2 (by simpa [argumentsOf] using ha)⟩
    | «with» p n => exact ⟨_, .inl hi, (starts_at _ _).2 (by simpa [argumentsOf] using ha)⟩
    | «variable» n v =>
      obtain ⟨ds, rfl⟩ := (hv n v hi).2.built
      simp only [argumentsOf, List.mem_flatMap, walk_items] at ha
      obtain ⟨j, hj, ha⟩ := ha
      cases j with
      | argument m => exact ⟨_, .inr ⟨⟨n, _, hi, hj⟩, .inl ⟨m, rfl⟩⟩, by simpa [NeedsArg] using ha⟩
      | «inherit» p m =>
        exact ⟨_, .inr ⟨⟨n, _, hi, hj⟩, .inr ⟨p, m, rfl⟩⟩, (starts_at _ _).2 (by simpa using ha)⟩
      | _ => simp at ha
  · rintro ⟨i, hi | ⟨⟨n, v, hi, ho⟩, h⟩, hn⟩
    · refine ⟨i, hi, ?_⟩
      cases i with
      | argument n => simpa [argumentsOf, NeedsArg] using hn
      | «variable» n v => exact absurd hn id
      | «inherit» p n => simpa [argumentsOf] using (starts_at _ _).1 hn
      | «with» p n => simpa [argumentsOf] using (starts_at _ _).1 hn
    · obtain ⟨ds, rfl⟩ := (hv n v hi).2.built
      refine ⟨_, hi, ?_⟩
      simp only [argumentsOf, List.mem_flatMap, walk_items]
      refine ⟨i, ho, ?_⟩
      rcases h with ⟨m, rfl⟩ | ⟨p, m, rfl⟩
      · simpa [NeedsArg] using hn
      · simpa using (starts_at _ _).1 hn

theorem mem_inherits (cfg : Config) (cs : List (Call Nix.Import)) (hv : Exprs cfg (inserted cs))
    (p n : ItemStr) :
    (p, n) ∈ (history cs).walkImports.flatMap inheritsOf ↔ Seen cs (.inherit p n) := by
  simp only [List.mem_flatMap, walk_mem]
  constructor
  · rintro ⟨i, hi, ha⟩
    cases i with
    | argument m => simp [inheritsOf] at ha
    | «with» q m => simp [inheritsOf] at ha
    | «inherit» q m =>
      simp only [inheritsOf, List.mem_singleton, Prod.mk.injEq] at ha
      obtain ⟨rfl, rfl⟩ := ha
      exact .inl hi
    | «variable» m v =>
      obtain ⟨ds, rfl⟩ := (hv m v hi).2.built
      simp only [inheritsOf, List.mem_flatMap, walk_items] at ha
      obtain ⟨j, hj, ha⟩ := ha
      cases j with
      | «inherit» q k =>
        simp only [List.mem_singleton, Prod.mk.injEq] at ha
        obtain ⟨rfl, rfl⟩ := ha
        exact .inr ⟨⟨m, _, hi, hj⟩, .inr ⟨_, _, rfl⟩⟩
      | _ => simp at ha
  · rintro (hi | ⟨⟨m, v, hi, ho⟩, -⟩)
    · exact ⟨_, hi, by simp [inheritsOf]⟩
    · obtain ⟨ds, rfl⟩ := (hv m v hi).2.built
      refine ⟨_, hi, ?_⟩
      simp only [inheritsOf, List.mem_flatMap, walk_items]
      exact ⟨_, ho, by simp⟩

theorem mem_withs (cs : List (Call Nix.Import)) (p : ItemStr) :
    p ∈ (history cs).walkImports.flatMap withsOf ↔ ∃ n, Import.with p n ∈ inserted cs := by
  simp only [List.mem_flatMap, walk_mem]
  constructor
  · rintro ⟨i, hi, h⟩
    cases i <;> simp [withsOf] at h
    subst h; exact ⟨_, hi⟩
  · rintro ⟨n, hi⟩; exact ⟨_, hi, by simp [withsOf]⟩

theorem mem_variables (cs : List (Call Nix.Import)) (n : ItemStr) (v : Tokens Nix.Import) :
    (n, v) ∈ (history cs).walkImports.flatMap variablesOf ↔ Import.variable n v ∈ inserted cs := by
  simp only [List.mem_flatMap, walk_mem]
  constructor
  · rintro ⟨i, hi, h⟩
    cases i <;> simp [variablesOf] at h
    obtain ⟨rfl, rfl⟩ := h
    exact hi
  · intro hi; exact ⟨_, hi, by simp [variablesOf]⟩

/-- C48. A Nix file is the function head with the sorted arguments (unless scoped),
the sorted scopes, the bindings and the body. Arguments and inherits are the ones of
the body and of the values of its variables; scopes and variables are the ones of the
body. -/
theorem C48_header (cfg : Config) (isScoped : Bool) (cs : List (Call Nix.Import))
    (hb : losesSpace Nix.lang.langItem (history cs).items = false) (hv : Exprs cfg (inserted cs)) :
    ∃ (as : List Str) (ws : List ItemStr) (ins : List (ItemStr × ItemStr))
      (vs : List (ItemStr × Tokens Nix.Import)),
      toFileVec Nix.lang cfg (Nix.file isScoped (history cs)) =
        (toVec Nix.lang cfg (history cs).items).map (fileLines (Decls.lines cfg
          ⟨if isScoped then none else some as, ws.map ItemStr.text,
            ins.map (fun e => .inherit e.1.text e.2.text) ++
              vs.map (fun e => .value e.1.text ((toVec Nix.lang cfg e.2.items).getD []))⟩)) ∧
      Sorted as ∧ (∀ a, a ∈ as ↔ ∃ i, Seen cs i ∧ NeedsArg a i) ∧
      Sorted ws ∧ (∀ p, p ∈ ws ↔ ∃ n, Import.with p n ∈ inserted cs) ∧
      Sorted ins ∧ (∀ p n, (p, n) ∈ ins ↔ Seen cs (.inherit p n)) ∧
      Sorted vs ∧ (∀ n v, (n, v) ∈ vs ↔ Import.variable n v ∈ inserted cs) := by
  refine ⟨setOf ((history cs).walkImports.flatMap argumentsOf), setOf ((history cs).walkImports.flatMap withsOf),
    setOf ((history cs).walkImports.flatMap inheritsOf), setOf ((history cs).walkImports.flatMap variablesOf),
    ?_, increasing_setOf _, ?_, increasing_setOf _, ?_, increasing_setOf _, ?_, increasing_setOf _, ?_⟩
  · exact Nix.file_eq cfg isScoped (history cs) hb (fun n v h => hv n v ((walk_mem cs _).1 h))
  · intro a; rw [mem_setOf, mem_arguments cfg cs hv]
  · intro p; rw [mem_setOf, mem_withs]
  · intro p n; rw [mem_setOf, mem_inherits cfg cs hv]
  · intro n v; rw [mem_setOf, mem_variables]

/-- C48, in part: declared is every import of the body, and every argument and inherit
of the values of its variables. Missing: imports further inside, and scopes and
variables inside values (see the witnesses). -/
theorem C48_nix_partial (cfg : Config) (isScoped : Bool) (cs : List (Call Nix.Import))
    (hb : losesSpace Nix.lang.langItem (history cs).items = false) (hv : Exprs cfg (inserted cs)) :
    ∃ d : Decls,
      toFileVec Nix.lang cfg (Nix.file isScoped (history cs)) =
        (toVec Nix.lang cfg (history cs).items).map (fileLines (d.lines cfg)) ∧
      (d.args = none ↔ isScoped = true) ∧
      (∀ i ∈ inserted cs, Declared cfg d i) ∧
      ∀ n v, Import.variable n v ∈ inserted cs → ∀ i, Occurs i v →
        ((∃ n, i = .argument n) ∨ ∃ p n, i = .inherit p n) → Declared cfg d i := by
  obtain ⟨as, ws, ins, vs, h1, -, ha, -, hw, -, hi, -, hvs⟩ := C48_header cfg isScoped cs hb hv
  refine ⟨_, h1, by cases isScoped <;> simp, ?_, ?_⟩
  · intro i hin
    refine ⟨?_, ?_⟩
    · intro as' e a hn
      cases isScoped with
      | true => simp at e
      | false => cases e; exact (ha a).2 ⟨i, .inl hin, hn⟩
    · cases i with
      | argument n => simp [Nix.lang, nixLang, baseLang, Nix.Import.format]
      | «inherit» p n =>
        refine List.mem_append_left _ (List.mem_map.2 ⟨(p, n), (hi p n).2 (.inl hin), ?_⟩)
        simp [Nix.lang, nixLang, baseLang, Nix.Import.format]
      | «variable» n v =>
        obtain ⟨c, -, -, ht⟩ := piece_expr (hv n v hin).2
        refine ⟨_, ht, List.mem_append_right _ (List.mem_map.2 ⟨(n, v), (hvs n v).2 hin, ?_⟩)⟩
        rw [ht]
        simp [Nix.lang, nixLang, baseLang, Nix.Import.format]
      | «with» p n =>
        refine ⟨List.mem_map.2 ⟨p, (hw p).2 ⟨n, hin⟩, rfl⟩, ?_⟩
        simp [Nix.lang, nixLang, baseLang, Nix.Import.format]
  · intro n v hvar i ho hk
    have hs : Seen cs i := .inr ⟨⟨n, v, hvar, ho⟩, hk⟩
    refine ⟨?_, ?_⟩
    · intro as' e a hn
      cases isScoped with
      | true => simp at e
      | false => cases e; exact (ha a).2 ⟨i, hs, hn⟩
    · rcases hk with ⟨m, rfl⟩ | ⟨p, m, rfl⟩
      · simp [Nix.lang, nixLang, baseLang, Nix.Import.format]
      · refine List.mem_append_left _ (List.mem_map.2 ⟨(p, m), (hi p m).2 hs, ?_⟩)
        simp [Nix.lang, nixLang, baseLang, Nix.Import.format]

/-! ## Examples -/

/-- The inherit of the examples. -/
def nixpkgs : Nix.Import := .inherit (.static "inputs.std".toList) (.static "nixpkgs".toList)

/-- The value of a variable. -/
def pkgsValue : List (Call Nix.Import) :=
  [.append (.literal (.static "import".toList)), .space, .appendLang nixpkgs, .space,
   .append (.literal (.static "{".toList)), .indent,
   .append (.literal (.static "x = 1;".toList)), .push, .line, .append (.literal (.static "y;".toList)),
   .unindent, .append (.literal (.static "}".toList))]

/-- Its code. -/
def pkgsCode : Code Nix.Import :=
  .item (.literal (.static "import".toList)) (.item .space (.item (.lang 0 nixpkgs) (.item .space
    (.item (.literal (.static "{".toList)) (.item (.indentation 1)
    (.item (.literal (.static "x = 1;".toList)) (.item .line (.item (.literal (.static "y;".toList))
    (.item (.indentation (-1)) (.item (.literal (.static "}".toList)) .nil))))))))))

/-- The stream of the examples. -/
def nixDemo : List (Call Nix.Import) :=
  [.appendLang (.variable (.static "pkgs".toList) (history pkgsValue)), .space,
   .appendLang (.with (.static "lib.lists".toList) (.static "map".toList)), .space,
   .appendLang (.argument (.static "cell".toList))]

example : toFileVec Nix.lang ⟨.space 4, ['\n']⟩ (Nix.file false (history nixDemo)) =
    some ["{".toList, "    cell,".toList, "    inputs,".toList, "    lib,".toList, "    ...".toList, "}:".toList,
      [], "with lib.lists;".toList, [], "let".toList, "    inherit (inputs.std) nixpkgs;".toList,
      "    pkgs = import nixpkgs {".toList, "        x = 1;".toList, [], "        y;".toList, "    };".toList,
      "in".toList, [], "pkgs map cell".toList] := by decide +kernel

theorem pkgs_expr : Expr ⟨.space 4, ['\n']⟩ (history pkgsValue) := by
  refine ⟨⟨_, rfl⟩, ⟨pkgsCode, rfl, rfl, ?_⟩, ⟨_, _, rfl, rfl⟩,
    ⟨(history pkgsValue).items.dropLast, .literal (.static "}".toList), rfl, rfl⟩⟩
  · have e : seen (pkgsCode.acts Nix.lang ⟨.space 4, ['\n']⟩) =
        [.text "import".toList, .space, .text "nixpkgs".toList, .space, .text "{".toList, .indent 1,
          .text "x = 1;".toList, .line, .text "y;".toList, .indent (-1), .text "}".toList] := by decide +kernel
    rw [e]
    refine ⟨⟨_, _, rfl, by decide⟩, ⟨[.text "import".toList, .space, .text "nixpkgs".toList, .space,
      .text "{".toList, .indent 1, .text "x = 1;".toList, .line, .text "y;".toList, .indent (-1)], _, rfl,
      by decide⟩, ?_, by decide⟩
    intro p hp
    rw [← List.mem_inits] at hp
    revert p
    decide

example : losesSpace Nix.lang.langItem (history nixDemo).items = false ∧
    Exprs ⟨.space 4, ['\n']⟩ (inserted nixDemo) := by
  refine ⟨by decide +kernel, ?_⟩
  intro n v h
  have : inserted nixDemo = [.variable (.static "pkgs".toList) (history pkgsValue),
    .with (.static "lib.lists".toList) (.static "map".toList), .argument (.static "cell".toList)] := rfl
  rw [this] at h
  simp only [List.mem_cons, reduceCtorEq, List.not_mem_nil, or_false, Nix.Import.variable.injEq] at h
  obtain ⟨rfl, rfl⟩ := h
  exact ⟨by decide, pkgs_expr⟩

/-- C48: a variable used by the value of a variable is not declared. -/
theorem C48_variable_witness :
    let y : Nix.Import := .variable (.static "y".toList) (history [.append (.literal (.static "1".toList))])
    let x : Nix.Import := .variable (.static "x".toList) (history [.appendLang y])
    let d : Decls := ⟨some [], [], [.value "x".toList ["y".toList]]⟩
    toFileVec Nix.lang ⟨.space 4, ['\n']⟩ (Nix.file false (history [.appendLang x])) =
      some (fileLines (d.lines ⟨.space 4, ['\n']⟩) ["x".toList]) ∧
    Needed (inserted [.appendLang x]) y ∧ ¬ Declared ⟨.space 4, ['\n']⟩ d y := by
  refine ⟨by decide +kernel, .inside (.used (List.mem_singleton.2 rfl)) (List.mem_singleton.2 rfl), ?_⟩
  rintro ⟨-, ls, -, h⟩
  revert h
  simp [Nix.lang, nixLang, baseLang, Nix.Import.format, ItemStr.text]

/-- C48: a scope used by the value of a variable is not declared. -/
theorem C48_with_witness :
    let y : Nix.Import := .with (.static "lib".toList) (.static "map".toList)
    let x : Nix.Import := .variable (.static "x".toList) (history [.appendLang y])
    let d : Decls := ⟨some [], [], [.value "x".toList ["map".toList]]⟩
    toFileVec Nix.lang ⟨.space 4, ['\n']⟩ (Nix.file false (history [.appendLang x])) =
      some (fileLines (d.lines ⟨.space 4, ['\n']⟩) ["x".toList]) ∧
    Needed (inserted [.appendLang x]) y ∧ ¬ Declared ⟨.space 4, ['\n']⟩ d y := by
  refine ⟨by decide +kernel, .inside (.used (List.mem_singleton.2 rfl)) (List.mem_singleton.2 rfl), ?_⟩
  rintro ⟨-, h, -⟩
  exact absurd h (by simp)

/-- C49 for Nix. -/
theorem C49_nix (isScoped : Bool) (cs ds : List (Call Nix.Import))
    (h : ∀ i, i ∈ inserted cs ↔ i ∈ inserted ds) :
    (Nix.file isScoped (history cs)).head? = (Nix.file isScoped (history ds)).head? := by
  have hw : ∀ i, i ∈ (history cs).walkImports ↔ i ∈ (history ds).walkImports := by
    intro i; rw [walk_mem, walk_mem, h]
  have hf : ∀ {β : Type} [Ord β] [Std.TransOrd β] [Std.LawfulEqOrd β] (f : Nix.Import → List β),
      setOf ((history cs).walkImports.flatMap f) = setOf ((history ds).walkImports.flatMap f) := by
    intro β _ _ _ f
    apply setOf_congr
    intro x
    simp only [List.mem_flatMap, hw]
  simp only [Nix.file, Nix.header, Nix.argumentCalls, Nix.withCalls, Nix.letCalls, hf, List.head?_cons]

example : (∀ i, i ∈ inserted [Call.appendLang nixpkgs, .space, .appendLang nixpkgs] ↔
    i ∈ inserted [Call.appendLang nixpkgs]) := by simp [inserted, callItems, langOf]

/-- C50 for Nix, in part: no argument, scope or binding twice, if equal texts are
stored alike and no two variables share a name. -/
theorem C50_nix_partial (cfg : Config) (isScoped : Bool) (cs : List (Call Nix.Import))
    (hb : losesSpace Nix.lang.langItem (history cs).items = false) (hv : Exprs cfg (inserted cs))
    (hu : ∀ p n q m, Import.with p n ∈ inserted cs → Import.with q m ∈ inserted cs → p.text = q.text → p = q)
    (hi : ∀ p n q m, Seen cs (.inherit p n) → Seen cs (.inherit q m) → p.text = q.text → n.text = m.text →
      p = q ∧ n = m)
    (hn : ∀ n v m w, Import.variable n v ∈ inserted cs → Import.variable m w ∈ inserted cs →
      n.text = m.text → n = m ∧ v = w) :
    ∃ d : Decls,
      toFileVec Nix.lang cfg (Nix.file isScoped (history cs)) =
        (toVec Nix.lang cfg (history cs).items).map (fileLines (d.lines cfg)) ∧
      (∀ as, d.args = some as → as.Nodup) ∧ d.withs.Nodup ∧ d.lets.Nodup := by
  obtain ⟨as, ws, ins, vs, h1, sa, -, sw, hw, si, hin, sv, hvs⟩ := C48_header cfg isScoped cs hb hv
  refine ⟨_, h1, ?_, nodup_map (Increasing.nodup sw) ?_, ?_⟩
  · intro as' e
    cases isScoped with
    | true => simp at e
    | false => cases e; exact Increasing.nodup sa
  · intro p hp q hq e
    obtain ⟨n, hp⟩ := (hw p).1 hp
    obtain ⟨m, hq⟩ := (hw q).1 hq
    exact hu p n q m hp hq e
  · refine List.nodup_append.2 ⟨nodup_map (Increasing.nodup si) ?_, nodup_map (Increasing.nodup sv) ?_, ?_⟩
    · rintro ⟨p, n⟩ hp ⟨q, m⟩ hq e
      simp only [Binding.inherit.injEq] at e
      obtain ⟨rfl, rfl⟩ := hi p n q m ((hin _ _).1 hp) ((hin _ _).1 hq) e.1 e.2
      rfl
    · rintro ⟨n, v⟩ hp ⟨m, w⟩ hq e
      simp only [Binding.value.injEq] at e
      obtain ⟨rfl, rfl⟩ := hn n v m w ((hvs _ _).1 hp) ((hvs _ _).1 hq) e.1
      rfl
    · intro a ha b hb' e
      obtain ⟨x, -, rfl⟩ := List.mem_map.1 ha
      obtain ⟨y, -, rfl⟩ := List.mem_map.1 hb'
      cases e

example : (∀ p n q m, Import.with p n ∈ inserted nixDemo → Import.with q m ∈ inserted nixDemo →
      p.text = q.text → p = q) ∧
    (∀ p n q m, Seen nixDemo (.inherit p n) → Seen nixDemo (.inherit q m) → p.text = q.text →
      n.text = m.text → p = q ∧ n = m) ∧
    (∀ n v m w, Import.variable n v ∈ inserted nixDemo → Import.variable m w ∈ inserted nixDemo →
      n.text = m.text → n = m ∧ v = w) := by
  have e : inserted nixDemo = [.variable (.static "pkgs".toList) (history pkgsValue),
    .with (.static "lib.lists".toList) (.static "map".toList), .argument (.static "cell".toList)] := rfl
  have hs : ∀ p n, Seen nixDemo (.inherit p n) → Import.inherit p n = nixpkgs := by
    rintro p n (h | ⟨⟨m, v, h, ho⟩, -⟩)
    · rw [e] at h; simp at h
    · rw [e] at h
      simp only [List.mem_cons, reduceCtorEq, List.not_mem_nil, or_false, Nix.Import.variable.injEq] at h
      obtain ⟨rfl, rfl⟩ := h
      exact List.mem_singleton.1 ho
  refine ⟨?_, ?_, ?_⟩
  · intro p n q m h h' _
    rw [e] at h h'
    simp only [List.mem_cons, reduceCtorEq, List.not_mem_nil, or_false, false_or, Nix.Import.with.injEq] at h h'
    rw [h.1, h'.1]
  · intro p n q m h h' _ _
    have := (hs p n h).trans (hs q m h').symm
    simpa using this
  · intro n v m w h h' _
    rw [e] at h h'
    simp only [List.mem_cons, reduceCtorEq, List.not_mem_nil, or_false, Nix.Import.variable.injEq] at h h'
    exact ⟨h.1.trans h'.1.symm, h.2.trans h'.2.symm⟩

/-- C50 for Nix, exactly: no argument is repeated; no scope is iff equal paths are
stored alike; no binding is iff equal inherits are stored alike and variables with
the same name and the same lines are the same. -/
theorem C50_nix_exact_partial (cfg : Config) (isScoped : Bool) (cs : List (Call Nix.Import))
    (hb : losesSpace Nix.lang.langItem (history cs).items = false) (hv : Exprs cfg (inserted cs)) :
    ∃ d : Decls,
      toFileVec Nix.lang cfg (Nix.file isScoped (history cs)) =
        (toVec Nix.lang cfg (history cs).items).map (fileLines (d.lines cfg)) ∧
      (∀ as, d.args = some as → as.Nodup) ∧
      (d.withs.Nodup ↔ ∀ p n q m, Import.with p n ∈ inserted cs → Import.with q m ∈ inserted cs →
        p.text = q.text → p = q) ∧
      (d.lets.Nodup ↔
        (∀ p n q m, Seen cs (.inherit p n) → Seen cs (.inherit q m) → p.text = q.text →
          n.text = m.text → p = q ∧ n = m) ∧
        ∀ n v m w, Import.variable n v ∈ inserted cs → Import.variable m w ∈ inserted cs →
          n.text = m.text → toVec Nix.lang cfg v.items = toVec Nix.lang cfg w.items → n = m ∧ v = w) := by
  obtain ⟨as, ws, ins, vs, h1, sa, -, sw, hw, si, hin, sv, hvs⟩ := C48_header cfg isScoped cs hb hv
  refine ⟨_, h1, ?_, ?_, ?_⟩
  · intro as' e
    cases isScoped with
    | true => simp at e
    | false => cases e; exact Increasing.nodup sa
  · rw [List.nodup_map_iff_inj_on (Increasing.nodup sw)]
    constructor
    · intro h p n q m hp hq e
      exact h p ((hw p).2 ⟨n, hp⟩) q ((hw q).2 ⟨m, hq⟩) e
    · intro h p hp q hq e
      obtain ⟨n, hp⟩ := (hw p).1 hp
      obtain ⟨m, hq⟩ := (hw q).1 hq
      exact h p n q m hp hq e
  · rw [List.nodup_append, List.nodup_map_iff_inj_on (Increasing.nodup si),
      List.nodup_map_iff_inj_on (Increasing.nodup sv)]
    constructor
    · rintro ⟨h, h', -⟩
      refine ⟨?_, ?_⟩
      · intro p n q m hp hq e e'
        have := h (p, n) ((hin _ _).2 hp) (q, m) ((hin _ _).2 hq) (by simp only [e, e'])
        exact Prod.ext_iff.1 this
      · intro n v m w hp hq e e'
        have := h' (n, v) ((hvs _ _).2 hp) (m, w) ((hvs _ _).2 hq) (by simp only [e, e'])
        exact Prod.ext_iff.1 this
    · rintro ⟨h, h'⟩
      refine ⟨?_, ?_, ?_⟩
      · rintro ⟨p, n⟩ hp ⟨q, m⟩ hq e
        simp only [Binding.inherit.injEq] at e
        obtain ⟨rfl, rfl⟩ := h p n q m ((hin _ _).1 hp) ((hin _ _).1 hq) e.1 e.2
        rfl
      · rintro ⟨n, v⟩ hp ⟨m, w⟩ hq e
        simp only [Binding.value.injEq] at e
        have hp := (hvs _ _).1 hp
        have hq := (hvs _ _).1 hq
        obtain ⟨_, -, -, e1⟩ := piece_expr (hv n v hp).2
        obtain ⟨_, -, -, e2⟩ := piece_expr (hv m w hq).2
        rw [e1, e2] at e
        simp only [Option.getD_some] at e
        obtain ⟨rfl, rfl⟩ := h' n v m w hp hq e.1 (by rw [e1, e2, e.2])
        rfl
      · intro a ha b hb' e
        obtain ⟨x, -, rfl⟩ := List.mem_map.1 ha
        obtain ⟨y, -, rfl⟩ := List.mem_map.1 hb'
        cases e

/-- C50: a path stored once boxed and once static. -/
theorem C50_nix_witness :
    toFileVec Nix.lang ⟨.space 4, ['\n']⟩ (Nix.file true (history
      [.appendLang (.inherit (.static "p".toList) (.static "a".toList)), .space,
       .appendLang (.inherit (.box "p".toList) (.static "a".toList))])) =
    some ["let".toList, "    inherit (p) a;".toList, "    inherit (p) a;".toList, "in".toList, [],
      "a a".toList] := by decide +kernel

theorem paragraphs_nil (ps : List (List Str)) : paragraphs ps = [] ↔ ∀ p ∈ ps, p = [] := by
  induction ps with
  | nil => simp [paragraphs]
  | cons p ps ih =>
    rw [paragraphs, List.forall_mem_cons, ← ih]
    by_cases hp : p = []
    · simp [hp]
    · by_cases hq : paragraphs ps = [] <;> simp [hp, hq]

theorem argLines_some (cfg : Config) (as : List Str) : argLines cfg (some as) ≠ [] := by simp [argLines]

theorem letLines_nil (cfg : Config) (bs : List Binding) : letLines cfg bs = [] ↔ bs = [] := by
  unfold letLines
  split <;> simp [*]

/-- C51 for Nix, in part: header, blank line, body. A scoped file has no header iff it
imports arguments only; other files always have one. -/
theorem C51_nix_partial (cfg : Config) (isScoped : Bool) (cs : List (Call Nix.Import))
    (hb : losesSpace Nix.lang.langItem (history cs).items = false) (hv : Exprs cfg (inserted cs)) :
    ∃ hd : List Str,
      toFileVec Nix.lang cfg (Nix.file isScoped (history cs)) =
        (toVec Nix.lang cfg (history cs).items).map (fileLines hd) ∧
      (hd = [] ↔ isScoped = true ∧ ∀ i ∈ inserted cs, ∃ n, i = .argument n) := by
  obtain ⟨as, ws, ins, vs, h1, -, -, -, hw, -, hin, -, hvs⟩ := C48_header cfg isScoped cs hb hv
  refine ⟨_, h1, ?_⟩
  unfold Decls.lines
  rw [paragraphs_nil]
  simp only [List.mem_cons, List.not_mem_nil, or_false, forall_eq_or_imp, forall_eq, letLines_nil,
    List.append_eq_nil_iff, List.map_eq_nil_iff]
  cases isScoped with
  | false =>
    simp only [Bool.false_eq_true, if_false, false_and, iff_false]
    exact fun h => argLines_some _ _ h.1
  | true =>
    simp only [if_true, true_and]
    constructor
    · rintro ⟨-, rfl, rfl, rfl⟩ i hi
      cases i with
      | argument n => exact ⟨n, rfl⟩
      | «inherit» p n => exact absurd ((hin p n).2 (.inl hi)) (by simp)
      | «variable» n v => exact absurd ((hvs n v).2 hi) (by simp)
      | «with» p n => exact absurd ((hw p).2 ⟨n, hi⟩) (by simp)
    · intro h
      refine ⟨rfl, ?_, ?_, ?_⟩
      · rw [List.eq_nil_iff_forall_not_mem]
        intro p hp
        obtain ⟨n, hp⟩ := (hw p).1 hp
        obtain ⟨m, e⟩ := h _ hp
        cases e
      · rw [List.eq_nil_iff_forall_not_mem]
        rintro ⟨p, n⟩ hp
        rcases (hin p n).1 hp with hp | ⟨⟨m, v, hp, -⟩, -⟩
        · obtain ⟨m, e⟩ := h _ hp
          cases e
        · obtain ⟨m, e⟩ := h _ hp
          cases e
      · rw [List.eq_nil_iff_forall_not_mem]
        rintro ⟨n, v⟩ hp
        obtain ⟨m, e⟩ := h _ ((hvs n v).1 hp)
        cases e

/-- C51: a file without imports still has a header. -/
theorem C51_nix_witness :
    toFileVec Nix.lang ⟨.space 4, ['\n']⟩ (Nix.file false (history
      [.append (.literal (.static "1".toList))])) =
    some ["{".toList, "    ...".toList, "}:".toList, [], "1".toList] := by decide +kernel

end Genco.Props
