import Verif.Model.Paths
import Verif.Spec.Paths
import Mathlib.Data.List.Induction

/-!
# Relative paths of JavaScript modules
-/

set_option autoImplicit false

namespace Genco.Spec.Paths

open Genco.Js

/-- A step of a component. -/
def stepC (p : Place) : Component → Place
  | .curDir => p
  | .parentDir => p.dir
  | .normal s => ⟨p.ups, p.names ++ [s]⟩

def walkC (p : Place) (cs : List Component) : Place := cs.foldl stepC p

/-- A component as it is read from a text. -/
def Clean : Component → Prop
  | .normal s => s ≠ [] ∧ '/' ∉ s ∧ s ≠ ['.'] ∧ s ≠ ['.', '.']
  | _ => True

theorem segments_ne (s : Str) : segments s ≠ [] := by
  cases s with
  | nil => simp [segments]
  | cons c s =>
    simp only [segments]
    split
    · simp
    · split <;> simp

theorem segments_plain {s : Str} (h : '/' ∉ s) : segments s = [s] := by
  induction s with
  | nil => rfl
  | cons c s ih =>
    simp only [List.mem_cons, not_or] at h
    simp only [segments, if_neg (Ne.symm h.1), ih h.2]

theorem segments_slash {s : Str} (h : '/' ∉ s) (r : Str) : segments (s ++ '/' :: r) = s :: segments r := by
  induction s with
  | nil => simp [segments]
  | cons c s ih =>
    simp only [List.mem_cons, not_or] at h
    rw [List.cons_append, segments, if_neg (Ne.symm h.1), ih h.2]

/-- Cut at the first slash. -/
theorem segments_cut (s : Str) : segments s = s.takeWhile (· != '/') ::
    (match s.dropWhile (· != '/') with
      | [] => []
      | _ :: r => segments r) := by
  induction s with
  | nil => rfl
  | cons c s ih =>
    by_cases h : c = '/'
    · subst h; simp [segments]
    · have e : (c != '/') = true := by simpa using h
      simp only [segments, if_neg h, List.takeWhile_cons, List.dropWhile_cons, e, if_true, ih]

theorem follow_nil (p : Place) : p.follow [] = p := by simp [Place.follow]

theorem follow_text {c : Component} (hc : Clean c) (p : Place) : p.follow c.text = stepC p c := by
  cases c with
  | curDir => simp [Place.follow, stepC, Component.text]
  | parentDir => simp [Place.follow, stepC, Component.text]
  | normal s =>
    obtain ⟨h1, -, h2, h3⟩ := hc
    simp [Place.follow, stepC, Component.text, h1, h2, h3]

theorem text_slash {c : Component} (hc : Clean c) : '/' ∉ c.text := by
  cases c with
  | curDir => decide
  | parentDir => decide
  | normal s => exact hc.2.1

theorem text_ne {c : Component} (hc : Clean c) : c.text ≠ [] := by
  cases c with
  | curDir => decide
  | parentDir => decide
  | normal s => exact hc.1

theorem walk_slashes (p : Place) (s : Str) : walk p (s.dropWhile (· == '/')) = walk p s := by
  induction s with
  | nil => rfl
  | cons c s ih =>
    by_cases h : c = '/'
    · subst h
      rw [List.dropWhile_cons, if_pos (by simp), ih]
      simp only [walk, segments, if_pos, List.foldl_cons, follow_nil]
    · rw [List.dropWhile_cons, if_neg (by simpa using h)]

theorem dropWhile_cons_slash {s : Str} {c : Char} {r : Str} (h : s.dropWhile (· != '/') = c :: r) : c = '/' := by
  induction s with
  | nil => simp at h
  | cons x s ih =>
    rw [List.dropWhile_cons] at h
    split at h
    · exact ih h
    · rename_i hx
      cases h
      simpa using hx

theorem takeWhile_slash (s : Str) : '/' ∉ s.takeWhile (· != '/') := by
  induction s with
  | nil => simp
  | cons c s ih =>
    rw [List.takeWhile_cons]
    split
    · rename_i hc
      have : c ≠ '/' := by simpa using hc
      simp [ih, Ne.symm this]
    · simp

theorem fuel_ok (n : Nat) : ∀ (s : Str), s.length < n → ∀ p,
    walkC p (componentsFuel n s) = walk p s ∧ ∀ c ∈ componentsFuel n s, Clean c := by
  induction n with
  | zero => intro s h; omega
  | succ n ih =>
    intro s hs p
    rw [← walk_slashes p s]
    unfold componentsFuel
    dsimp only
    have hd : (s.dropWhile (· == '/')).length ≤ s.length := (List.dropWhile_sublist _).length_le
    have hh : ∀ r, s.dropWhile (· == '/') ≠ '/' :: r := by
      intro r h
      have := List.head_dropWhile_not (· == '/') (l := s) (by rw [h]; simp)
      simp [h] at this
    generalize s.dropWhile (· == '/') = t at hd hh ⊢
    have ht : t.takeWhile (· != '/') = [] → t = [] := by
      intro h
      cases t with
      | nil => rfl
      | cons c t =>
        rw [List.takeWhile_cons] at h
        split at h
        · cases h
        · rename_i hc
          have : c = '/' := by simpa using hc
          subst this
          exact absurd rfl (hh t)
    have hl : (t.takeWhile (· != '/')).length + (t.dropWhile (· != '/')).length = t.length := by
      rw [← List.length_append, List.takeWhile_append_dropWhile]
    have hw : ∀ q, walk q t = walk (q.follow (t.takeWhile (· != '/'))) (t.dropWhile (· != '/')) := by
      intro q
      have e := congrArg (List.foldl Place.follow q) (segments_cut t)
      rw [walk, e]
      cases hr : t.dropWhile (· != '/') with
      | nil => simp [walk, segments, follow_nil]
      | cons c r =>
        have := dropWhile_cons_slash hr
        subst this
        simp [walk, segments, follow_nil]
    rw [hw p]
    have hn := takeWhile_slash t
    generalize t.dropWhile (· != '/') = d at *
    generalize t.takeWhile (· != '/') = k at *
    have hk : k ≠ [] → d.length < n := by
      intro h
      have : 0 < k.length := List.length_pos_iff.2 h
      omega
    split
    · obtain rfl := ht rfl
      have : d = [] := by
        apply List.eq_nil_of_length_eq_zero
        simpa using hl
      subst this
      simp [walkC, walk, segments, follow_nil]
    · obtain ⟨h1, h2⟩ := ih d (hk (by simp)) p
      refine ⟨?_, ?_⟩
      · show walkC p (componentsFuel n d) = _
        rw [h1]; simp [Place.follow]
      · intro c hc
        rcases List.mem_cons.1 hc with rfl | hc
        · trivial
        · exact h2 c hc
    · obtain ⟨h1, h2⟩ := ih d (hk (by simp)) p.dir
      refine ⟨?_, ?_⟩
      · show walkC p.dir (componentsFuel n d) = _
        rw [h1]; simp [Place.follow]
      · intro c hc
        rcases List.mem_cons.1 hc with rfl | hc
        · trivial
        · exact h2 c hc
    · rename_i h3 h4 h5
      have hc : Clean (.normal k) := ⟨h3, hn, h4, h5⟩
      obtain ⟨h1, h2⟩ := ih d (hk h3) (p.follow k)
      refine ⟨?_, ?_⟩
      · rw [← h1]
        show walkC (stepC p (.normal k)) _ = _
        rw [← follow_text hc p]; rfl
      · intro c hc'
        rcases List.mem_cons.1 hc' with rfl | hc'
        · exact hc
        · exact h2 c hc'

theorem walk_components (p : Place) (s : Str) : walkC p (components s) = walk p s :=
  (fuel_ok _ s (Nat.lt_succ_self _) p).1

theorem clean_components (s : Str) : ∀ c ∈ components s, Clean c :=
  (fuel_ok _ s (Nat.lt_succ_self _) here).2

/-! ## Texts -/

theorem pushText_text {b : Str} (hb : b = [] ∨ b.getLast? ≠ some '/') (c : Component) :
    pushText b c.text = if b = [] then c.text else b ++ '/' :: c.text := by
  unfold pushText
  by_cases h : b = []
  · subst h; simp
  · rw [if_pos ⟨h, hb.resolve_left h⟩, if_neg h]

theorem getLast_text {c : Component} (hc : Clean c) (b : Str) : (b ++ c.text).getLast? ≠ some '/' := by
  rw [List.getLast?_append]
  cases h : c.text.getLast? with
  | none => exact absurd (List.getLast?_eq_none_iff.1 h) (text_ne hc)
  | some x =>
    simp only [Option.some_or, ne_eq, Option.some.injEq]
    rintro rfl
    exact text_slash hc (List.mem_of_getLast? h)

theorem segments_snoc {s : Str} {c : Component} (hc : Clean c) :
    segments (s ++ '/' :: c.text) = segments s ++ [c.text] := by
  induction s with
  | nil =>
    show segments ('/' :: c.text) = _
    simp only [segments, if_pos, List.singleton_append, segments_plain (text_slash hc)]
  | cons x s ih =>
    rw [List.cons_append]
    simp only [segments, ih]
    split
    · rfl
    · cases h : segments s with
      | nil => exact absurd h (segments_ne s)
      | cons y r => rfl

theorem pathText_ok (cs : List Component) (hc : ∀ c ∈ cs, Clean c) :
    (pathText cs = [] ∨ (pathText cs).getLast? ≠ some '/') ∧
      (pathText cs = [] ↔ cs = []) ∧ segments (pathText cs) = if cs = [] then [[]] else cs.map Component.text := by
  induction cs using List.reverseRecOn with
  | nil => exact ⟨.inl rfl, ⟨fun _ => rfl, fun _ => rfl⟩, rfl⟩
  | append_singleton cs c ih =>
    obtain ⟨h1, h2, h3⟩ := ih (fun x hx => hc x (List.mem_append_left _ hx))
    have hk := hc c (by simp)
    clear hc
    rename Clean c => hc
    have e : pathText (cs ++ [c]) = if cs = [] then c.text else pathText cs ++ '/' :: c.text := by
      show (cs ++ [c]).foldl _ [] = _
      rw [List.foldl_append]
      show pushText (pathText cs) c.text = _
      rw [pushText_text h1]
      simp only [h2]
    rw [e]
    by_cases hn : cs = []
    · subst hn
      simp only [if_pos, List.nil_append]
      refine ⟨.inr ?_, ?_, ?_⟩
      · simpa using getLast_text hc []
      · simp [text_ne hc]
      · simp [segments_plain (text_slash hc)]
    · simp only [if_neg hn]
      refine ⟨.inr ?_, by simp, ?_⟩
      · have := getLast_text hc (pathText cs ++ ['/'])
        simpa using this
      · rw [segments_snoc hc, h3, if_neg hn]
        simp

theorem walk_pathText (cs : List Component) (hc : ∀ c ∈ cs, Clean c) (p : Place) :
    walk p (pathText cs) = walkC p cs := by
  unfold walk
  rw [(pathText_ok cs hc).2.2]
  by_cases hn : cs = []
  · subst hn; simp [walkC, follow_nil]
  · rw [if_neg hn]
    clear hn
    induction cs generalizing p with
    | nil => rfl
    | cons c cs ih =>
      rw [List.map_cons, List.foldl_cons, follow_text (hc c (by simp)), ih (fun x hx => hc x (List.mem_cons_of_mem _ hx))]
      rfl

/-! ## Places -/

/-- The components of a place. -/
def compsOf (p : Place) : List Component := List.replicate p.ups .parentDir ++ p.names.map .normal

theorem compsOf_snoc (u : Nat) (ns : List Str) (s : Str) : compsOf ⟨u, ns ++ [s]⟩ = compsOf ⟨u, ns⟩ ++ [.normal s] := by
  simp [compsOf]

theorem traverseStep_ok (p : Place) (c : Component) :
    traverseStep (compsOf p).reverse c = (compsOf (stepC p c)).reverse := by
  obtain ⟨u, ns⟩ := p
  cases c with
  | curDir => rfl
  | normal s => simp [stepC, compsOf_snoc, traverseStep]
  | parentDir =>
    rcases List.eq_nil_or_concat ns with rfl | ⟨ns, s, rfl⟩
    · cases u with
      | zero => rfl
      | succ u =>
        have e : (compsOf ⟨u + 1, []⟩).reverse = .parentDir :: List.replicate u .parentDir := by
          simp only [compsOf, List.map_nil, List.append_nil, List.reverse_replicate]
          rfl
        rw [e]
        simp only [compsOf, stepC, Place.dir, traverseStep, if_pos, List.map_nil, List.append_nil, List.reverse_replicate]
        rfl
    · have e : ns.concat s = ns ++ [s] := by simp
      rw [e, compsOf_snoc]
      have : stepC ⟨u, ns ++ [s]⟩ .parentDir = ⟨u, ns⟩ := by simp [stepC, Place.dir]
      rw [this]
      simp [traverseStep]

theorem traverse_ok (cs : List Component) : traverse cs = compsOf (walkC here cs) := by
  have : ∀ (cs : List Component) (p : Place),
      cs.foldl traverseStep (compsOf p).reverse = (compsOf (walkC p cs)).reverse := by
    intro cs
    induction cs with
    | nil => intro p; rfl
    | cons c cs ih =>
      intro p
      rw [List.foldl_cons, traverseStep_ok, ih]
      rfl
  have h := this cs here
  unfold traverse
  rw [show ([] : List Component) = (compsOf here).reverse from rfl, h, List.reverse_reverse]

theorem walkC_append (p : Place) (a b : List Component) : walkC p (a ++ b) = walkC (walkC p a) b :=
  List.foldl_append ..

theorem walkC_names (p : Place) (ns : List Str) : walkC p (ns.map .normal) = ⟨p.ups, p.names ++ ns⟩ := by
  induction ns generalizing p with
  | nil => simp [walkC]
  | cons n ns ih =>
    show walkC (stepC p (.normal n)) (ns.map .normal) = _
    rw [ih]
    simp [stepC]

theorem walkC_compsOf (p : Place) : walkC here (compsOf p) = p := by
  obtain ⟨u, ns⟩ := p
  have : ∀ (u k : Nat), walkC ⟨k, []⟩ (List.replicate u .parentDir) = ⟨k + u, []⟩ := by
    intro u
    induction u with
    | zero => intro k; rfl
    | succ u ih =>
      intro k
      show walkC ⟨k + 1, []⟩ _ = _
      rw [ih]
      simp only [Place.mk.injEq, and_true]; omega
  unfold compsOf
  rw [walkC_append, here, this, walkC_names]
  simp

theorem skipCommon_ok (a b : List Component) : ∃ c, a = c ++ (skipCommon a b).1 ∧ b = c ++ (skipCommon a b).2 ∧
    ∀ x r, (skipCommon a b).1 = x :: r → ∀ y r', (skipCommon a b).2 = y :: r' → x ≠ y := by
  induction a generalizing b with
  | nil => exact ⟨[], by simp [skipCommon], by simp [skipCommon], by simp [skipCommon]⟩
  | cons f fs ih =>
    cases b with
    | nil => exact ⟨[], by simp [skipCommon], by simp [skipCommon], by simp [skipCommon]⟩
    | cons t ts =>
      by_cases h : f = t
      · subst h
        obtain ⟨c, h1, h2, h3⟩ := ih ts
        refine ⟨f :: c, ?_, ?_, ?_⟩ <;> simp only [skipCommon, if_pos]
        · rw [List.cons_append, ← h1]
        · rw [List.cons_append, ← h2]
        · exact h3
      · refine ⟨[], ?_, ?_, ?_⟩ <;> simp only [skipCommon, if_neg h, List.nil_append]
        intro x r hx y r' hy
        cases hx; cases hy; exact h

/-- What is left of the components of a place, if it does not begin with a step up, is names. -/
theorem rest_names {p : Place} {c a : List Component} (h : compsOf p = c ++ a) (ha : ∀ r, a ≠ .parentDir :: r) :
    ∃ ns : List Str, a = ns.map .normal ∧ ns.length ≤ p.names.length := by
  obtain ⟨u, ns⟩ := p
  induction c generalizing u ns with
  | nil =>
    rw [List.nil_append] at h
    subst h
    cases u with
    | zero => exact ⟨ns, by simp [compsOf], Nat.le_refl _⟩
    | succ u => exact absurd rfl (ha (List.replicate u .parentDir ++ ns.map .normal))
  | cons x c ih =>
    cases u with
    | succ u =>
      have h : (.parentDir :: compsOf ⟨u, ns⟩) = x :: (c ++ a) := h
      obtain ⟨ms, h1, h2⟩ := ih u ns (List.cons.inj h).2
      exact ⟨ms, h1, h2⟩
    | zero =>
      cases ns with
      | nil => simp [compsOf] at h
      | cons n ns =>
        have h : (.normal n :: compsOf ⟨0, ns⟩) = x :: (c ++ a) := h
        obtain ⟨ms, h1, h2⟩ := ih 0 ns (List.cons.inj h).2
        exact ⟨ms, h1, Nat.le_succ_of_le h2⟩

/-- Up as often as there were names. -/
theorem walkC_back (p : Place) (ns : List Str) :
    walkC p (ns.map .normal ++ (ns.map Component.normal).map (fun _ => .parentDir)) = p := by
  induction ns generalizing p with
  | nil => rfl
  | cons n ns ih =>
    have e : (List.map (fun _ => Component.parentDir) (List.map Component.normal (n :: ns))) =
        List.map (fun _ => Component.parentDir) (List.map Component.normal ns) ++ [.parentDir] := by
      simp only [List.map_map, List.map_cons, Function.comp_def]
      rw [List.map_const', ← List.replicate_succ, List.replicate_succ']
    rw [e, List.map_cons, List.cons_append, ← List.append_assoc]
    show walkC (stepC p (.normal n)) _ = p
    rw [walkC_append, ih]
    simp [walkC, stepC, Place.dir]

/-- The first component up. -/
theorem ups_lt {f t : Place} {c a b : List Component} (hf : compsOf f = c ++ .parentDir :: a)
    (ht : compsOf t = c ++ b) (hb : ∀ r, b ≠ .parentDir :: r) : t.ups < f.ups := by
  obtain ⟨u, ns⟩ := f
  obtain ⟨v, ms⟩ := t
  induction c generalizing u v with
  | nil =>
    cases v with
    | succ v => exact absurd (show b = .parentDir :: (List.replicate v .parentDir ++ ms.map .normal) from ht.symm) (hb _)
    | zero =>
      cases u with
      | succ u => exact Nat.succ_pos u
      | zero =>
        cases ns with
        | nil => simp [compsOf] at hf
        | cons n ns => simp [compsOf] at hf
  | cons x c ih =>
    cases u with
    | zero =>
      have : Component.parentDir ∈ compsOf ⟨0, ns⟩ := by rw [hf]; simp
      simp [compsOf] at this
    | succ u =>
      have hf : (.parentDir :: compsOf ⟨u, ns⟩) = x :: (c ++ .parentDir :: a) := hf
      have hx := (List.cons.inj hf).1
      subst hx
      cases v with
      | zero =>
        cases ms with
        | nil => simp [compsOf] at ht
        | cons m ms => simp [compsOf] at ht
      | succ v =>
        have ht : (.parentDir :: compsOf ⟨v, ms⟩) = .parentDir :: (c ++ b) := ht
        have := ih u (List.cons.inj hf).2 v (List.cons.inj ht).2
        simpa using this

theorem relative_ok (m p : List Component) :
    (relative m p = [] ∧ (walkC here p).ups < (walkC here m).ups) ∨
      walkC (walkC here m) (relative m p) = walkC here p := by
  unfold relative
  rw [traverse_ok, traverse_ok]
  obtain ⟨c, h1, h2, h3⟩ := skipCommon_ok (compsOf (walkC here m)) (compsOf (walkC here p))
  generalize skipCommon (compsOf (walkC here m)) (compsOf (walkC here p)) = ab at *
  obtain ⟨a, b⟩ := ab
  dsimp only at h1 h2 h3
  split
  · rename_i r x heq
    cases heq
    refine .inl ⟨rfl, ups_lt h1 h2 ?_⟩
    rintro r' rfl
    exact h3 _ _ rfl _ _ rfl rfl
  · rename_i x y hne heq
    cases heq
    refine .inr ?_
    obtain ⟨ns, rfl, -⟩ := rest_names h1 (by rintro r rfl; exact hne r rfl)
    have e : walkC here m = walkC here (c ++ ns.map .normal) := by rw [← h1, walkC_compsOf]
    rw [e, ← walkC_append, List.append_assoc, ← List.append_assoc (ns.map Component.normal), walkC_append, walkC_append,
      walkC_back, ← walkC_append, ← h2, walkC_compsOf]

/-- Steps up are never undone. -/
theorem ups_walk (cs : List Component) : ∀ p : Place, p.ups ≤ (walkC p cs).ups := by
  induction cs with
  | nil => intro p; exact Nat.le_refl _
  | cons c cs ih =>
    intro p
    refine Nat.le_trans ?_ (ih (stepC p c))
    cases c with
    | curDir => exact Nat.le_refl _
    | parentDir =>
      simp only [stepC, Place.dir]
      split
      · exact Nat.le_succ _
      · exact Nat.le_refl _
    | normal s => exact Nat.le_refl _

/-! ## Depth -/

/-- How deep a place is. -/
def depth (p : Place) : Int := p.names.length - p.ups

theorem depth_dir (p : Place) : depth p.dir = depth p - 1 := by
  obtain ⟨u, ns⟩ := p
  rcases List.eq_nil_or_concat ns with rfl | ⟨ns, s, rfl⟩
  · simp [depth, Place.dir]; omega
  · simp [depth, Place.dir]; omega

theorem depth_step (p q : Place) (c : Component) : depth (stepC p c) - depth p = depth (stepC q c) - depth q := by
  cases c with
  | curDir => simp [stepC]
  | parentDir => simp only [stepC, depth_dir]; omega
  | normal s => simp [stepC, depth]; omega

theorem depth_walk (cs : List Component) : ∀ p q : Place, depth (walkC p cs) - depth p = depth (walkC q cs) - depth q := by
  induction cs with
  | nil => intro p q; simp [walkC]
  | cons c cs ih =>
    intro p q
    have h1 := ih (stepC p c) (stepC q c)
    have h2 := depth_step p q c
    show depth (walkC (stepC p c) cs) - _ = depth (walkC (stepC q c) cs) - _
    omega

theorem clean_skip (a b : List Component) (hb : ∀ c ∈ b, Clean c) : ∀ c ∈ (skipCommon a b).2, Clean c := by
  obtain ⟨c, -, h2, -⟩ := skipCommon_ok a b
  intro x hx
  exact hb x (by rw [h2]; exact List.mem_append_right _ hx)

theorem clean_compsOf {p : Place} (h : ∀ n ∈ p.names, Clean (.normal n)) : ∀ c ∈ compsOf p, Clean c := by
  intro c hc
  rcases List.mem_append.1 hc with hc | hc
  · rw [(List.mem_replicate.1 hc).2]; trivial
  · obtain ⟨n, hn, rfl⟩ := List.mem_map.1 hc; exact h n hn

theorem clean_walk (cs : List Component) (hc : ∀ c ∈ cs, Clean c) :
    ∀ p : Place, (∀ n ∈ p.names, Clean (.normal n)) → ∀ n ∈ (walkC p cs).names, Clean (.normal n) := by
  induction cs with
  | nil => intro p h; exact h
  | cons c cs ih =>
    intro p h
    refine ih (fun x hx => hc x (List.mem_cons_of_mem _ hx)) _ ?_
    cases c with
    | curDir => exact h
    | parentDir =>
      intro n hn
      simp only [stepC, Place.dir] at hn
      split at hn
      · cases hn
      · exact h n (List.dropLast_subset _ hn)
    | normal s =>
      intro n hn
      rcases List.mem_append.1 hn with hn | hn
      · exact h n hn
      · rw [List.mem_singleton.1 hn]; exact hc _ (List.mem_cons_self ..)

theorem clean_relative (m p : List Component) (hp : ∀ c ∈ p, Clean c) : ∀ c ∈ relative m p, Clean c := by
  unfold relative
  have h := clean_skip (traverse m) (traverse p) (by
    rw [traverse_ok]; exact clean_compsOf (clean_walk p hp here (by simp [here])))
  split
  · simp
  · rename_i heq
    intro c hc
    rcases List.mem_append.1 hc with hc | hc
    · obtain ⟨x, -, rfl⟩ := List.mem_map.1 hc; trivial
    · rw [heq] at h; exact h c hc

/-- The text of the relative path, followed. -/
theorem walk_pathFrom (m p : Str) (q : Place) :
    walk q (pathFrom (some m) (components p)) = walkC q (relative (components m) (components p)) :=
  walk_pathText _ (clean_relative _ _ (clean_components p)) q

end Genco.Spec.Paths
