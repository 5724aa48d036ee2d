import Verif.Proofs.Only
import Verif.Spec.NixNames
import Verif.Props.Nix

/-!
# What names mean in Nix files (C96)
-/

set_option autoImplicit false

namespace Genco.Props

open Genco Spec Spec.NixFile Nix

/-- The import is bound by the `let`: an inherit of the body or of the value of a
variable, or a variable of the body. -/
def Bound (cs : List (Call Nix.Import)) (j : Nix.Import) : Prop :=
  (∃ p n, j = .inherit p n ∧ Seen cs j) ∨ ∃ n v, j = .variable n v ∧ j ∈ inserted cs

/-- The file has an argument of that name. -/
def Arg (isScoped : Bool) (cs : List (Call Nix.Import)) (n : Str) : Prop :=
  isScoped = false ∧ ∃ i, Seen cs i ∧ NeedsArg n i

/-- Of the scopes that have the attribute `n`, the innermost has the path `w`. -/
def Innermost (attrs : Str → Str → Prop) (cs : List (Call Nix.Import)) (w n : Str) : Prop :=
  attrs w n ∧ ∃ q m, Import.with q m ∈ inserted cs ∧ q.text = w ∧
    ∀ r k, Import.with r k ∈ inserted cs → compare q r = .lt → ¬ attrs r.text n

/-- The name of the import is not taken by something else. -/
def Free (isScoped : Bool) (outer : Str → Prop) (attrs : Str → Str → Prop) (cs : List (Call Nix.Import))
    (i : Nix.Import) : Prop :=
  match i with
  | .argument n => ∀ j, Bound cs j → nameOf j ≠ n.text
  | .inherit _ _ | .variable _ _ => ∀ j, Bound cs j → nameOf j = nameOf i → j = i
  | .with p n =>
    (∃ q m, q.text = p.text ∧ m.text = n.text ∧ Bound cs (.inherit q m) ∧
      ∀ j, Bound cs j → nameOf j = n.text → j = .inherit q m) ∨
    ((∀ j, Bound cs j → nameOf j ≠ n.text) ∧ ¬ Arg isScoped cs n.text ∧ ¬ outer n.text ∧
      Innermost attrs cs p.text n.text)

/-- The binding made for an import. -/
def bindingOf (cfg : Config) : Nix.Import → Binding
  | .inherit p n => .inherit p.text n.text
  | i => .value (nameOf i) (match i with
    | .variable _ v => (toVec Nix.lang cfg v.items).getD []
    | _ => [])

theorem last_with {ws : List ItemStr} (hs : Sorted ws) (attrs : Str → Str → Prop) (w n : Str) :
    (∃ before after, ws.map ItemStr.text = before ++ w :: after ∧ ∀ x ∈ after, ¬ attrs x n) ↔
      ∃ q ∈ ws, q.text = w ∧ ∀ r ∈ ws, compare q r = .lt → ¬ attrs r.text n := by
  constructor
  · rintro ⟨before, after, h, hu⟩
    obtain ⟨a, c, rfl, rfl, hc⟩ := List.map_eq_append_iff.1 h
    obtain ⟨q, c, rfl, rfl, rfl⟩ := List.map_eq_cons_iff.1 hc
    refine ⟨q, by simp, rfl, ?_⟩
    intro r hr hlt
    have hp := List.pairwise_append.1 hs
    rcases List.mem_append.1 hr with hr | hr
    · have := hp.2.2 r hr q (by simp)
      rw [Std.OrientedCmp.gt_of_lt this] at hlt
      cases hlt
    · rcases List.mem_cons.1 hr with rfl | hr
      · rw [Std.ReflCmp.compare_self (cmp := compare)] at hlt
        cases hlt
      · exact hu _ (List.mem_map_of_mem hr)
  · rintro ⟨q, hq, rfl, hu⟩
    obtain ⟨a, c, rfl⟩ := List.append_of_mem hq
    refine ⟨a.map ItemStr.text, c.map ItemStr.text, by simp, ?_⟩
    intro x hx
    obtain ⟨r, hr, rfl⟩ := List.mem_map.1 hx
    exact hu r (by simp [hr]) (List.rel_of_pairwise_cons (List.pairwise_append.1 hs).2.1 hr)

theorem bindingOf_name (cfg : Config) {cs : List (Call Nix.Import)} {j : Nix.Import} (_ : Bound cs j) :
    (bindingOf cfg j).name = nameOf j := by
  cases j <;> rfl

theorem bindingOf_meaning (cfg : Config) {cs : List (Call Nix.Import)} {j : Nix.Import} (h : Bound cs j) :
    (bindingOf cfg j).meaning = intended cfg j := by
  rcases h with ⟨p, n, rfl, -⟩ | ⟨n, v, rfl, -⟩ <;> rfl

theorem render_name (i : Nix.Import) : (Nix.lang.langItem i).flatten = nameOf i := by
  cases i <;> simp [Nix.lang, nixLang, baseLang, Nix.Import.format, nameOf]

/-- C96. Exactly which names of a Nix file mean what their imports ask for: those of
the body, and the arguments and inherits of the values of its variables, whose name is
not taken by something else. The names paths start with mean what is given from
outside: in scopes always, in inherits unless the `let` binds them. A scoped file has to
be put where these names and its arguments are known. -/
theorem C96_denotes (cfg : Config) (isScoped : Bool) (outer : Str → Prop) (attrs : Str → Str → Prop)
    (cs : List (Call Nix.Import))
    (hb : losesSpace Nix.lang.langItem (history cs).items = false) (hv : Exprs cfg (inserted cs))
    (ho : isScoped = true → ∀ i a, Seen cs i → NeedsArg a i → outer a) :
    ∃ d : Decls,
      toFileVec Nix.lang cfg (Nix.file isScoped (history cs)) =
        (toVec Nix.lang cfg (history cs).items).map (fileLines (d.lines cfg)) ∧
      ∀ i, Seen cs i →
        (Denotes d outer attrs (Nix.lang.langItem i).flatten (intended cfg i) ↔
          Free isScoped outer attrs cs i) ∧
        ∀ a, NeedsArg a i → Denotes d.above outer attrs a (.given a) ∧
          (Denotes d outer attrs a (.given a) ↔ ∀ j, Bound cs j → nameOf j ≠ a) := by
  obtain ⟨as, ws, ins, vs, h1, sa, ha, sw, hw, si, hin, sv, hvs⟩ := C48_header cfg isScoped cs hb hv
  refine ⟨_, h1, ?_⟩
  generalize hd : Decls.mk (if isScoped then none else some as) (ws.map ItemStr.text)
    (ins.map (fun e => Binding.inherit e.1.text e.2.text) ++
      vs.map (fun e => .value e.1.text ((toVec Nix.lang cfg e.2.items).getD []))) = d
  let l : List Nix.Import := ins.map (fun e => .inherit e.1 e.2) ++ vs.map (fun e => .variable e.1 e.2)
  have hml : ∀ j, j ∈ l ↔ Bound cs j := by
    intro j
    simp only [l, List.mem_append, List.mem_map, Prod.exists, Bound]
    constructor
    · rintro (⟨p, n, h, rfl⟩ | ⟨n, v, h, rfl⟩)
      · exact .inl ⟨p, n, rfl, (hin p n).1 h⟩
      · exact .inr ⟨n, v, rfl, (hvs n v).1 h⟩
    · rintro (⟨p, n, rfl, h⟩ | ⟨n, v, rfl, h⟩)
      · exact .inl ⟨p, n, (hin p n).2 h, rfl⟩
      · exact .inr ⟨n, v, (hvs n v).2 h, rfl⟩
  have hnl : l.Nodup := by
    refine List.nodup_append.2 ⟨nodup_map (Increasing.nodup si) ?_, nodup_map (Increasing.nodup sv) ?_, ?_⟩
    · rintro ⟨p, n⟩ - ⟨q, m⟩ - e
      cases e; rfl
    · rintro ⟨p, n⟩ - ⟨q, m⟩ - e
      cases e; rfl
    · intro a ha b hb' e
      obtain ⟨x, -, rfl⟩ := List.mem_map.1 ha
      obtain ⟨y, -, rfl⟩ := List.mem_map.1 hb'
      cases e
  have hlets : d.lets = l.map (bindingOf cfg) := by
    subst hd
    simp only [l, List.map_append, List.map_map]
    rfl
  have hargs : ∀ n, (∀ as', d.args = some as' → n ∉ as') ↔ ¬ Arg isScoped cs n := by
    intro n
    subst hd
    cases isScoped with
    | true => simp [Arg]
    | false => simp [Arg, ha]
  have hwiths : d.withs = ws.map ItemStr.text := by subst hd; rfl
  have hnone : ∀ n, (∀ b ∈ d.lets, b.name ≠ n) ↔ ∀ j, Bound cs j → nameOf j ≠ n := by
    intro n
    rw [hlets]
    constructor
    · intro h j hj
      rw [← bindingOf_name cfg hj]
      exact h _ (List.mem_map_of_mem ((hml j).2 hj))
    · intro h b hb
      obtain ⟨j, hj, rfl⟩ := List.mem_map.1 hb
      have hj := (hml j).1 hj
      rw [bindingOf_name cfg hj]
      exact h j hj
  have hone : ∀ b, (∃ before after, d.lets = before ++ b :: after ∧
      ∀ x ∈ before ++ after, x.name ≠ b.name) ↔
      ∃ j, Bound cs j ∧ bindingOf cfg j = b ∧ ∀ k, Bound cs k → nameOf k = b.name → k = j := by
    intro b
    rw [hlets, only_one hnl]
    constructor
    · rintro ⟨j, hj, e, h⟩
      exact ⟨j, (hml j).1 hj, e, fun k hk hn => h k ((hml k).2 hk) (by rw [bindingOf_name cfg hk, hn])⟩
    · rintro ⟨j, hj, e, h⟩
      refine ⟨j, (hml j).2 hj, e, fun k hk hn => h k ((hml k).1 hk) ?_⟩
      rw [← bindingOf_name cfg ((hml k).1 hk), hn]
  -- A name that is bound means what the only binding of it says.
  have hden : ∀ n m j, Bound cs j → nameOf j = n → Denotes d outer attrs n m →
      intended cfg j = m ∧ ∀ k, Bound cs k → nameOf k = n → k = j := by
    intro n m j hj hn h
    cases h with
    | bound b before after e hu =>
      obtain ⟨j', hj', rfl, h'⟩ := (hone b).1 ⟨before, after, e, hu⟩
      have := h' j hj hn
      subst this
      exact ⟨(bindingOf_meaning cfg hj).symm, h'⟩
    | argument _ as' ha hn' hl => exact absurd hn ((hnone n).1 hl j hj)
    | outside _ hu ho => exact absurd hn ((hnone n).1 hu.1 j hj)
    | scope _ w before after hu ho e hw hi => exact absurd hn ((hnone n).1 hu.1 j hj)
  have hfree : ∀ j, Bound cs j → (∀ k, Bound cs k → nameOf k = nameOf j → k = j) →
      Denotes d outer attrs (nameOf j) (intended cfg j) := by
    intro j hj h
    obtain ⟨before, after, e, hu⟩ := (hone (bindingOf cfg j)).2
      ⟨j, hj, rfl, by rw [bindingOf_name cfg hj]; exact h⟩
    have := Denotes.bound (outer := outer) (attrs := attrs) _ _ _ e hu
    rwa [bindingOf_name cfg hj, bindingOf_meaning cfg hj] at this
  have hgiven : ∀ i a, Seen cs i → NeedsArg a i → Denotes d.above outer attrs a (.given a) ∧
      (Denotes d outer attrs a (.given a) ↔ ∀ j, Bound cs j → nameOf j ≠ a) := by
    intro i a hi hna
    by_cases hA : Arg isScoped cs a
    · have hda : d.args = some as := by subst hd; simp [hA.1]
      refine ⟨.argument _ as hda ((ha _).2 hA.2) (by simp [Decls.above]), ?_, ?_⟩
      · intro h j hj hn
        have := (hden _ _ j hj hn h).1
        rcases hj with ⟨p, n', rfl, -⟩ | ⟨n', v, rfl, -⟩ <;> cases this
      · intro h
        exact .argument _ as hda ((ha _).2 hA.2) ((hnone _).2 h)
    · have hsc : isScoped = true := by
        cases isScoped with
        | true => rfl
        | false => exact absurd ⟨rfl, _, hi, hna⟩ hA
      refine ⟨.outside _ ⟨by simp [Decls.above], (hargs _).2 hA⟩ (ho hsc i a hi hna), ?_, ?_⟩
      · intro h j hj hn
        have := (hden _ _ j hj hn h).1
        rcases hj with ⟨p, n', rfl, -⟩ | ⟨n', v, rfl, -⟩ <;> cases this
      · intro h
        exact .outside _ ⟨(hnone _).2 h, (hargs _).2 hA⟩ (ho hsc i a hi hna)
  intro i hi
  refine ⟨?_, fun a hna => hgiven i a hi hna⟩
  rw [render_name]
  cases i with
  | argument n => exact (hgiven _ _ hi rfl).2
  | «inherit» p n =>
    have hj : Bound cs (.inherit p n) := .inl ⟨p, n, rfl, hi⟩
    exact ⟨fun h => (hden _ _ _ hj rfl h).2, hfree _ hj⟩
  | «variable» n v =>
    have hj : Bound cs (.variable n v) := by
      refine .inr ⟨n, v, rfl, ?_⟩
      rcases hi with hi | ⟨-, ⟨_, h⟩ | ⟨_, _, h⟩⟩
      · exact hi
      · cases h
      · cases h
    exact ⟨fun h => (hden _ _ _ hj rfl h).2, hfree _ hj⟩
  | «with» p n =>
    simp only [Free, nameOf, intended]
    constructor
    · intro h
      by_cases hb' : ∃ j, Bound cs j ∧ nameOf j = n.text
      · obtain ⟨j, hj, hn⟩ := hb'
        obtain ⟨hm, hu⟩ := hden _ _ j hj hn h
        left
        rcases hj with ⟨q, m, rfl, hs⟩ | ⟨n', v, rfl, -⟩
        · simp only [intended, Meaning.attribute.injEq] at hm
          exact ⟨q, m, hm.1, hm.2, .inl ⟨q, m, rfl, hs⟩, hu⟩
        · cases hm
      · right
        have hb' : ∀ j, Bound cs j → nameOf j ≠ n.text := fun j hj hn => hb' ⟨j, hj, hn⟩
        generalize hnn : n.text = nn at h
        generalize hmm : Meaning.attribute p.text nn = mm at h
        cases h with
        | bound b before after e hu =>
          obtain ⟨j', hj', rfl, -⟩ := (hone b).1 ⟨before, after, e, hu⟩
          exact absurd (by rw [hnn, bindingOf_name cfg hj']) (hb' j' hj')
        | argument _ as' ha hn' hl => cases hmm
        | outside _ hu ho => cases hmm
        | scope _ w before after hu ho e hw' hi' =>
          cases hmm
          refine ⟨hnn ▸ hb', (hargs _).1 hu.2, ho, hw', ?_⟩
          rw [hwiths] at e
          obtain ⟨q, hq, e, h⟩ := (last_with sw attrs _ _).1 ⟨before, after, e, hi'⟩
          obtain ⟨m, hq⟩ := (hw q).1 hq
          exact ⟨q, m, hq, e, fun r k hr => h r ((hw r).2 ⟨k, hr⟩)⟩
    · rintro (⟨q, m, e1, e2, hj, hu⟩ | ⟨hn, hA, ho', hat, q, m, hq, e, h⟩)
      · have := hfree _ hj (by simpa only [nameOf, e2] using hu)
        simpa only [nameOf, intended, e1, e2] using this
      · obtain ⟨before, after, e, h'⟩ := (last_with sw attrs p.text n.text).2
          ⟨q, (hw q).2 ⟨m, hq⟩, e, fun r hr => by
            obtain ⟨k, hr⟩ := (hw r).1 hr
            exact h r k hr⟩
        exact .scope _ _ before after ⟨(hnone _).2 hn, (hargs _).2 hA⟩ ho' (hwiths.trans e) hat h'

/-- The meanings in the example: the attribute `map` is one of `lib.lists`. -/
def listAttrs (p n : Str) : Prop := p = "lib.lists".toList ∧ n = "map".toList

/-- All names of the example mean what they are meant to, if `map` is not known outside. -/
example : ∀ i ∈ inserted nixDemo, Free false (fun _ => False) listAttrs nixDemo i := by
  have e : inserted nixDemo = [.variable (.static "pkgs".toList) (history pkgsValue),
    .with (.static "lib.lists".toList) (.static "map".toList), .argument (.static "cell".toList)] := rfl
  have hs : ∀ i, Seen nixDemo i → i ∈ inserted nixDemo ∨ i = nixpkgs := by
    rintro i (h | ⟨⟨m, v, h, ho⟩, -⟩)
    · exact .inl h
    · rw [e] at h
      simp only [List.mem_cons, reduceCtorEq, List.not_mem_nil, or_false, Nix.Import.variable.injEq] at h
      obtain ⟨rfl, rfl⟩ := h
      exact .inr (List.mem_singleton.1 ho)
  have hbd : ∀ j, Bound nixDemo j → j = nixpkgs ∨ j = .variable (.static "pkgs".toList) (history pkgsValue) := by
    rintro j (⟨p, n, rfl, h⟩ | ⟨n, v, rfl, h⟩)
    · rcases hs _ h with h | h
      · rw [e] at h; simp at h
      · exact .inl h
    · rw [e] at h
      simp only [List.mem_cons, reduceCtorEq, List.not_mem_nil, or_false] at h
      exact .inr h
  intro i hi
  rw [e] at hi
  simp only [List.mem_cons, List.not_mem_nil, or_false] at hi
  rcases hi with rfl | rfl | rfl
  · intro j hj hn
    rcases hbd j hj with rfl | rfl
    · exact absurd hn (by decide)
    · rfl
  · refine .inr ⟨?_, ?_, by simp, ⟨rfl, rfl⟩, .static "lib.lists".toList, .static "map".toList,
      by rw [e]; simp, rfl, ?_⟩
    · intro j hj
      rcases hbd j hj with rfl | rfl <;> decide
    · rintro ⟨-, i, hi, hn⟩
      have : ∀ p : Str, StartsAt p "map".toList → p = "map".toList ∨ ∃ r, p = "map".toList ++ '.' :: r :=
        fun p h => h.2
      rcases hs i hi with h | rfl
      · rw [e] at h
        simp only [List.mem_cons, List.not_mem_nil, or_false] at h
        rcases h with rfl | rfl | rfl
        · exact hn
        · rcases this _ hn with h | ⟨r, h⟩ <;> simp [ItemStr.text] at h
        · revert hn; simp [NeedsArg, ItemStr.text]
      · rcases this _ hn with h | ⟨r, h⟩ <;> simp [ItemStr.text] at h
    · intro r k hr hlt
      rw [e] at hr
      simp only [List.mem_cons, reduceCtorEq, List.not_mem_nil, or_false, false_or,
        Nix.Import.with.injEq] at hr
      rw [hr.1, Std.ReflCmp.compare_self (cmp := compare)] at hlt
      cases hlt
  · intro j hj
    rcases hbd j hj with rfl | rfl <;> decide

/-- C96. The code does not keep names apart: a variable and an inherit of one name are
both bound, which is an error; a name of a scope that is also the name of a variable
means the variable. -/
theorem C96_witness :
    let one : Tokens Nix.Import := history [.append (.literal (.static "1".toList))]
    let d : Decls := ⟨none, [], [.inherit "p".toList "x".toList, .value "x".toList ["1".toList]]⟩
    let e : Decls := ⟨none, ["p".toList], [.value "x".toList ["1".toList]]⟩
    (toFileVec Nix.lang ⟨.space 4, ['\n']⟩ (Nix.file true (history
        [.appendLang (.variable (.static "x".toList) one), .space,
         .appendLang (.inherit (.static "p".toList) (.static "x".toList))])) =
      some (fileLines (d.lines ⟨.space 4, ['\n']⟩) ["x x".toList]) ∧
      ∀ outer attrs m, ¬ Denotes d outer attrs "x".toList m) ∧
    toFileVec Nix.lang ⟨.space 4, ['\n']⟩ (Nix.file true (history
        [.appendLang (.variable (.static "x".toList) one), .space,
         .appendLang (.with (.static "p".toList) (.static "x".toList))])) =
      some (fileLines (e.lines ⟨.space 4, ['\n']⟩) ["x x".toList]) ∧
      ∀ outer attrs m, Denotes e outer attrs "x".toList m → m = .value ["1".toList] := by
  refine ⟨⟨by decide +kernel, ?_⟩, by decide +kernel, ?_⟩
  · intro outer attrs m h0
    have key : ∀ x, Denotes ⟨none, [], [.inherit "p".toList "x".toList, .value "x".toList ["1".toList]]⟩
        outer attrs x m → x ≠ "x".toList := by
      intro x h hx
      cases h with
      | bound b before after h hu =>
        match before, h with
        | [], h =>
          obtain ⟨rfl, rfl⟩ := List.cons.inj h
          exact hu (.value "x".toList ["1".toList]) (by simp) rfl
        | [_], h =>
          obtain ⟨h1, h2⟩ := List.cons.inj h
          obtain ⟨h3, -⟩ := List.cons.inj h2
          subst h1 h3
          exact hu (.inherit "p".toList "x".toList) (by simp) rfl
        | _ :: _ :: before, h => simp at h
      | argument _ as ha => cases ha
      | outside _ hu => exact hu.1 (.inherit "p".toList "x".toList) (by simp) hx.symm
      | scope _ w before after hu => exact hu.1 (.inherit "p".toList "x".toList) (by simp) hx.symm
    exact key _ h0 rfl
  · intro outer attrs m h0
    have key : ∀ x, Denotes ⟨none, ["p".toList], [.value "x".toList ["1".toList]]⟩ outer attrs x m →
        x = "x".toList → m = .value ["1".toList] := by
      intro x h hx
      cases h with
      | bound b before after h hu =>
        match before, h with
        | [], h =>
          obtain ⟨rfl, rfl⟩ := List.cons.inj h
          rfl
        | _ :: before, h => simp at h
      | argument _ as ha => cases ha
      | outside _ hu => exact absurd hx.symm (hu.1 (.value "x".toList ["1".toList]) (by simp))
      | scope _ w before after hu => exact absurd hx.symm (hu.1 (.value "x".toList ["1".toList]) (by simp))
    exact key _ h0 rfl

end Genco.Props
