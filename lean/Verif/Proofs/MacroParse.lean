import Verif.Spec.MacroParse

/-!
# Parsing of macro input
-/

set_option autoImplicit false

namespace Genco.Spec.MacroFile

open Genco.Macro

/-! ## More fuel -/

/-- As good or better. -/
def Le {α : Type} (a b : Option α) : Prop := ∀ x, a = some x → b = some x

theorem le_refl {α : Type} (a : Option α) : Le a a := fun _ h => h

theorem le_none {α : Type} (a : Option α) : Le none a := fun _ h => nomatch h

theorem le_bind {α β : Type} {a b : Option α} {f g : α → Option β} (h : Le a b) (k : ∀ x, Le (f x) (g x)) :
    Le (a.bind f) (b.bind g) := by
  intro y hy
  obtain ⟨x, hx, hf⟩ := Option.bind_eq_some_iff.1 hy
  exact Option.bind_eq_some_iff.2 ⟨x, h x hx, k x y hf⟩

/-- More fuel changes no result. -/
structure Mono (S : Syn) (n : Nat) : Prop where
  inner : ∀ u ts, Le (parseInner S n u ts) (parseInner S (n + 1) u ts)
  all : ∀ ts, Le (parseAll S n ts) (parseAll S (n + 1) ts)
  one : ∀ ts, Le (parseOne S n ts) (parseOne S (n + 1) ts)
  function : ∀ a b name r, Le (parseFunction S n a b name r) (parseFunction S (n + 1) a b name r)
  expression : ∀ cur ts, Le (parseExpression S n cur ts) (parseExpression S (n + 1) cur ts)
  condition : ∀ cur ts, Le (parseCondition S n cur ts) (parseCondition S (n + 1) cur ts)
  loop : ∀ cur ts, Le (parseLoop S n cur ts) (parseLoop S (n + 1) cur ts)
  body : ∀ ts, Le (parseBody S n ts) (parseBody S (n + 1) ts)
  arms : ∀ ts, Le (parseArms S n ts) (parseArms S (n + 1) ts)
  parts : ∀ ts, Le (parseParts S n ts) (parseParts S (n + 1) ts)

theorem mono (S : Syn) (n : Nat) : Mono S n := by
  induction n with
  | zero =>
    constructor <;> intros <;>
      simp only [parseInner, parseAll, parseOne, parseFunction, parseExpression, parseCondition, parseLoop,
        parseBody, parseArms, parseParts] <;> exact le_none _
  | succ n ih =>
    have hi := ih.inner
    have ha := ih.all
    have ho := ih.one
    have hf := ih.function
    have he := ih.expression
    have hc := ih.condition
    have hl := ih.loop
    have hb := ih.body
    have hr := ih.arms
    have hp := ih.parts
    constructor
    · intro u ts
      rw [parseInner.eq_def S (n + 1), parseInner.eq_def S (n + 1 + 1)]
      dsimp only
      split
      · exact le_refl _
      · split
        · exact le_refl _
        · exact le_bind (ho _) fun x => le_bind (hi _ _) fun y => le_refl _
    · intro ts
      rw [parseAll, parseAll.eq_def S (n + 1 + 1)]
      exact le_bind (hi _ _) fun y => le_refl _
    · intro ts
      rw [parseOne.eq_def S (n + 1), parseOne.eq_def S (n + 1 + 1)]
      dsimp only
      split
      all_goals first
        | exact le_refl _
        | exact hf _ _ _ _
        | exact le_bind (he _ _) fun y => le_refl _
        | exact le_bind (ha _) fun y => le_refl _
    · intro a b name r
      rw [parseFunction.eq_def S (n + 1), parseFunction.eq_def S (n + 1 + 1)]
      dsimp only
      split
      · exact le_refl _
      · split
        · exact le_bind (hp _) fun y => le_refl _
        · exact le_refl _
      · exact le_refl _
    · intro cur ts
      rw [parseExpression.eq_def S (n + 1), parseExpression.eq_def S (n + 1 + 1)]
      dsimp only
      split
      · exact hc _ _
      · split
        · exact hl _ _
        · split
          · refine le_bind (le_refl _) fun y => ?_
            split
            · exact le_bind (hr _) fun y => le_refl _
            · exact le_refl _
          · exact le_refl _
    · intro cur ts
      rw [parseCondition.eq_def S (n + 1), parseCondition.eq_def S (n + 1 + 1)]
      dsimp only
      refine le_bind (le_refl _) fun y => ?_
      split
      · exact le_bind (ha _) fun y => le_refl _
      · split
        · exact le_bind (ha _) fun y => le_refl _
        · split
          · exact le_bind (ha _) fun y => le_bind (ha _) fun y => le_refl _
          · exact le_refl _
        · exact le_refl _
    · intro cur ts
      rw [parseLoop.eq_def S (n + 1), parseLoop.eq_def S (n + 1 + 1)]
      dsimp only
      refine le_bind (le_refl _) fun y => ?_
      split
      · refine le_bind (le_refl _) fun y => ?_
        split
        · split
          · exact le_bind (ha _) fun y => le_bind (hb _) fun y => le_refl _
          · exact le_refl _
        · exact le_bind (hb _) fun y => le_refl _
      · exact le_refl _
    · intro ts
      rw [parseBody.eq_def S (n + 1), parseBody.eq_def S (n + 1 + 1)]
      dsimp only
      split
      · exact ha _
      · split
        · exact ha _
        · exact le_refl _
    · intro ts
      rw [parseArms.eq_def S (n + 1), parseArms.eq_def S (n + 1 + 1)]
      cases ts with
      | nil => exact le_refl _
      | cons t ts =>
        dsimp only
        refine le_bind (le_refl _) fun y => ?_
        refine le_bind (le_refl _) fun y => ?_
        refine le_bind (le_refl _) fun y => ?_
        split
        · exact le_bind (ha _) fun y => le_bind (hr _) fun y => le_refl _
        · exact le_bind (ha _) fun y => le_bind (hr _) fun y => le_refl _
        · exact le_bind (hi _ _) fun y => le_bind (hr _) fun y => le_refl _
    · intro ts
      rw [parseParts.eq_def S (n + 1), parseParts.eq_def S (n + 1 + 1)]
      dsimp only
      split
      all_goals first
        | exact le_refl _
        | exact le_bind (hp _) fun y => le_refl _
        | exact le_bind (ha _) fun y => le_bind (hp _) fun y => le_refl _
        | (split
           · exact le_bind (hp _) fun y => le_refl _
           · exact le_refl _)
        | (split
           · exact le_refl _
           · exact le_bind (hp _) fun y => le_refl _)

theorem le_trans {α : Type} {a b c : Option α} (h : Le a b) (k : Le b c) : Le a c := fun x hx => k x (h x hx)

theorem le_of_step {α : Type} (f : Nat → Option α) (h : ∀ n, Le (f n) (f (n + 1))) {n m : Nat} (hn : n ≤ m) :
    Le (f n) (f m) := by
  induction hn with
  | refl => exact le_refl _
  | step _ ih => exact le_trans ih (h _)

theorem inner_mono (S : Syn) (u : Bool) (ts : List TT) {n m : Nat} (h : n ≤ m) :
    Le (parseInner S n u ts) (parseInner S m u ts) :=
  le_of_step (fun n => parseInner S n u ts) (fun n => (mono S n).inner u ts) h

theorem all_mono (S : Syn) (ts : List TT) {n m : Nat} (h : n ≤ m) : Le (parseAll S n ts) (parseAll S m ts) :=
  le_of_step (fun n => parseAll S n ts) (fun n => (mono S n).all ts) h

theorem one_mono (S : Syn) (ts : List TT) {n m : Nat} (h : n ≤ m) : Le (parseOne S n ts) (parseOne S m ts) :=
  le_of_step (fun n => parseOne S n ts) (fun n => (mono S n).one ts) h

theorem body_mono (S : Syn) (ts : List TT) {n m : Nat} (h : n ≤ m) : Le (parseBody S n ts) (parseBody S m ts) :=
  le_of_step (fun n => parseBody S n ts) (fun n => (mono S n).body ts) h

theorem arms_mono (S : Syn) (ts : List TT) {n m : Nat} (h : n ≤ m) : Le (parseArms S n ts) (parseArms S m ts) :=
  le_of_step (fun n => parseArms S n ts) (fun n => (mono S n).arms ts) h

theorem parts_mono (S : Syn) (ts : List TT) {n m : Nat} (h : n ≤ m) : Le (parseParts S n ts) (parseParts S m ts) :=
  le_of_step (fun n => parseParts S n ts) (fun n => (mono S n).parts ts) h

/-! ## Everything in the grammar is accepted -/

theorem peekComma_eq (t : TT) : peekComma t = isComma t := by cases t <;> rfl

theorem startsWith_eq (w : String) (ts : List TT) : startsWith w ts = begins (isWord w) ts := by
  rcases ts with _ | ⟨t, ts⟩
  · rfl
  · cases t <;> simp [startsWith, begins, isWord]

theorem dropComma_eq (ts : List TT) : dropComma ts = sansComma ts := by
  rcases ts with _ | ⟨t, ts⟩
  · rfl
  · by_cases h : isComma t = true <;> simp [dropComma, sansComma, begins, peekComma_eq, h]

theorem firstSpan_eq (p : Cur) (ts : List TT) : firstSpan p ts = headSpan p ts := by
  rcases ts with _ | ⟨t, ts⟩
  · rfl
  · cases t <;> rfl

/-- Where reading ends: at the end of the input, or at a comma behind tokens without. -/
def Stop (u : Bool) (ts rest : List TT) : Prop :=
  (u = false ∧ rest = []) ∨
  (u = true ∧ (∀ t ∈ ts, isComma t = false) ∧ (rest = [] ∨ begins isComma rest = true))

theorem Stop.tail {u : Bool} {t : TT} {ts rest : List TT} (h : Stop u (t :: ts) rest) : Stop u ts rest := by
  rcases h with h | ⟨h1, h2, h3⟩
  · exact .inl h
  · exact .inr ⟨h1, fun t ht => h2 t (List.mem_cons_of_mem _ ht), h3⟩

theorem Stop.head {u : Bool} {t : TT} {ts rest : List TT} (h : Stop u (t :: ts) rest) :
    (u && isComma t) = false := by
  rcases h with ⟨rfl, _⟩ | ⟨h1, h2, h3⟩
  · rfl
  · rw [h2 t List.mem_cons_self, Bool.and_false]

theorem inner_cons {S : Syn} {u : Bool} {t : TT} {r r' rest : List TT} {node} {ns} (hu : (u && isComma t) = false)
    (h : ∃ n, parseOne S n (t :: r) = some (node, r')) (k : ∃ n, parseInner S n u r' = some (ns, rest)) :
    ∃ n, parseInner S n u (t :: r) = some (node :: ns, rest) := by
  obtain ⟨n, hn⟩ := h
  obtain ⟨m, hm⟩ := k
  refine ⟨max n m + 1, ?_⟩
  rw [parseInner.eq_def]
  simp only [peekComma_eq, hu, Bool.false_eq_true, if_false]
  rw [one_mono S _ (Nat.le_max_left n m) _ hn]
  simp only [Option.bind_eq_bind, Option.bind_some]
  rw [inner_mono S _ _ (Nat.le_max_right n m) _ hm]
  rfl

theorem all_of_inner {S : Syn} {ts : List TT} {ns} (h : ∃ n, parseInner S n false (ts ++ []) = some (ns, [])) :
    ∃ n, parseAll S n ts = some ns := by
  obtain ⟨n, hn⟩ := h
  refine ⟨n + 1, ?_⟩
  rw [List.append_nil] at hn
  rw [parseAll.eq_def]
  simp [hn]

theorem one_word (S : Syn) {t : TT} {w : Str} (h : wordOf t = some w) (r : List TT) :
    parseOne S 1 (t :: r) = some (.tree t.cur w, r) := by
  cases t with
  | ident cur name => cases h; rfl
  | punct cur c j =>
    have hc : c ≠ '$' := by rintro rfl; simp [wordOf] at h
    simp only [wordOf, if_neg hc, Option.some.injEq] at h
    subst h
    rw [parseOne.eq_def]
    dsimp only
    split
    all_goals first
      | rfl
      | (simp_all; done)
      | (simp_all [TT.cur]; done)
  | char cur v text => cases h; rfl
  | lit cur text => cases h; rfl
  | str => cases h
  | group => cases h

theorem one_function (S : Syn) (n : Nat) (a b : Cur) (j : Bool) (name r : List TT) :
    parseOne S (n + 1) (.punct a '$' j :: .group b .bracket name :: r) = parseFunction S n a b name r := by
  simp [parseOne]

theorem one_alone (S : Syn) (cur : Cur) (j : Bool) {ts : List TT} (h : Alone S ts) :
    parseOne S 1 (.punct cur '$' j :: ts) = some (.tree cur ['$'], ts) := by
  rcases ts with _ | ⟨t, ts⟩
  · rfl
  · cases t with
    | ident c name => simp only [Alone] at h; simp [parseOne, h]
    | punct c ch k =>
      simp only [Alone, ne_eq] at h
      rw [parseOne.eq_def]
      dsimp only
      split
      all_goals first
        | rfl
        | (simp_all; done)
        | (rename_i heq; cases heq; rfl)
    | char => rfl
    | lit => rfl
    | str => rfl
    | group c d content => simp only [Alone] at h; subst h; rfl

theorem alone_append {S : Syn} {u : Bool} {ts rest : List TT} (h : Alone S ts) (hs : Stop u ts rest) :
    Alone S (ts ++ rest) := by
  rcases ts with _ | ⟨t, ts⟩
  · rcases hs with ⟨_, rfl⟩ | ⟨_, _, rfl | h3⟩
    · exact h
    · exact h
    · rcases rest with _ | ⟨t, rest⟩
      · exact h
      · cases t <;> simp_all [begins, isComma, Alone]
  · cases t <;> exact h

theorem begins_append {u : Bool} {ts rest : List TT} (h : begins isParen ts = false) (hs : Stop u ts rest) :
    begins isParen (ts ++ rest) = false := by
  rcases ts with _ | ⟨t, ts⟩
  · rcases hs with ⟨_, rfl⟩ | ⟨_, _, rfl | h3⟩
    · exact h
    · exact h
    · rcases rest with _ | ⟨t, rest⟩
      · exact h
      · cases t <;> simp_all [begins, isComma, isParen]
  · exact h

theorem function_control (S : Syn) (a b c : Cur) {ch : Char} {k : ControlKind} (text : Str) {r : List TT}
    (hk : ControlKind.fromChar ch = some k) (h : begins isParen r = false) :
    parseFunction S 1 a b [.char c ch text] r = some (.control (through a b) k, r) := by
  rw [parseFunction.eq_def]
  dsimp only
  rw [hk]
  rcases r with _ | ⟨t, r⟩
  · rfl
  · cases t with
    | group c d content => cases d <;> first | rfl | simp [begins, isParen] at h
    | _ => rfl

theorem fromChar_of_mem {ch : Char} {k : ControlKind}
    (h : (ch, k) ∈ [(' ', ControlKind.space), ('\r', .push), ('\n', .line)]) : ControlKind.fromChar ch = some k := by
  simp only [List.mem_cons, Prod.mk.injEq, List.not_mem_nil, or_false] at h
  rcases h with ⟨rfl, rfl⟩ | ⟨rfl, rfl⟩ | ⟨rfl, rfl⟩ <;> rfl

theorem mem_of_fromChar {ch : Char} {k : ControlKind} (h : ControlKind.fromChar ch = some k) :
    (ch, k) ∈ [(' ', ControlKind.space), ('\r', .push), ('\n', .line)] := by
  unfold ControlKind.fromChar at h
  split at h <;> simp_all

theorem fatArrow_arrow (a b : Cur) (j : Bool) (r : List TT) : fatArrow (arrow a b j ++ r) = some r := rfl

theorem arrow_of_fatArrow {ts r : List TT} (h : fatArrow ts = some r) : ∃ a b j, ts = arrow a b j ++ r := by
  unfold fatArrow at h
  split at h
  · cases h; exact ⟨_, _, _, rfl⟩
  · cases h

theorem whole_iff (f : List TT → Option (List TT × List TT)) (ts e : List TT) :
    whole f ts = some e ↔ f ts = some (e, []) := by
  unfold whole
  split
  · rename_i h; rw [h]; simp
  · rename_i h
    constructor
    · intro h'; cases h'
    · intro h'; exact absurd h' (h e)

/-- What the parser has to do with a form. -/
def Accepted (S : Syn) : Form → Prop
  | .nodes ts ns => ∀ u rest, Stop u ts rest → ∃ n, parseInner S n u (ts ++ rest) = some (ns, rest)
  | .inside cur ts node => ∃ n, parseExpression S n cur ts = some node
  | .body ts ns => ∃ n, parseBody S n ts = some ns
  | .arms ts as => ∃ n, parseArms S n ts = some as
  | .parts ts ps => ∃ n, parseParts S n ts = some ps

theorem accepted_all {S : Syn} {ts : List TT} {ns} (h : Accepted S (.nodes ts ns)) : ∃ n, parseAll S n ts = some ns :=
  all_of_inner (h false [] (.inl ⟨rfl, rfl⟩))

theorem condition_of_body {S : Syn} {cur : Cur} {ts e r : List TT} {ns} {n : Nat} (he : S.expr ts = some (e, r))
    (h : parseBody S n r = some ns) : parseCondition S n cur ts = some (.ifThen cur e ns) := by
  rcases n with _ | n
  · cases h
  rw [parseBody.eq_def] at h
  rw [parseCondition.eq_def]
  simp only [he, Option.bind_eq_bind, Option.bind_some]
  dsimp only at h
  split at h
  · simp [h]
  · split at h
    · simp [h]
    · cases h

theorem guardOf_of {S : Syn} {us rest : List TT} {guard : Option (List TT)} (h : Guarded S us guard rest) :
    guardOf S us = some (guard, rest) := by
  unfold guardOf
  rw [startsWith_eq]
  rcases h with ⟨h, rfl, rfl⟩ | ⟨c, vs, e, rfl, h, rfl⟩
  · rw [h]; rfl
  · have : begins (isWord "if") (.ident c "if".toList :: vs) = true := by simp [begins, isWord]
    rw [this, if_pos rfl, List.tail_cons, h]
    rfl

theorem guarded_of {S : Syn} {us rest : List TT} {guard : Option (List TT)} (h : guardOf S us = some (guard, rest)) :
    Guarded S us guard rest := by
  unfold guardOf at h
  rw [startsWith_eq] at h
  split at h
  · rename_i hb
    rcases us with _ | ⟨t, us⟩
    · cases hb
    · cases t with
      | ident c name =>
        simp only [begins, List.head?_cons, Option.any_some, isWord, beq_iff_eq] at hb
        subst hb
        rw [List.tail_cons, Option.map_eq_some_iff] at h
        obtain ⟨⟨e, r⟩, he, hp⟩ := h
        cases hp
        exact .inr ⟨_, _, _, rfl, he, rfl⟩
      | _ => simp [begins, isWord] at hb
  · rename_i hb
    cases h
    exact .inl ⟨by simpa using hb, rfl, rfl⟩

theorem split_comma (r : List TT) : Stop true (r.takeWhile (fun t => !isComma t)) (r.dropWhile (fun t => !isComma t)) := by
  refine .inr ⟨rfl, fun t ht => by simpa using List.all_eq_true.1 List.all_takeWhile t ht, ?_⟩
  rcases hd : r.dropWhile (fun t => !isComma t) with _ | ⟨t, l⟩
  · exact .inl rfl
  · right
    have := List.head_dropWhile_not (p := fun t => !isComma t) (l := r) (by rw [hd]; simp)
    simp only [hd, List.head_cons, Bool.not_eq_false'] at this
    simp [begins, this]

theorem dropComma_dropWhile (r : List TT) :
    dropComma (r.dropWhile (fun t => !isComma t)) = (r.dropWhile (fun t => !isComma t)).tail := by
  rw [dropComma_eq]
  rcases split_comma r with ⟨h, _⟩ | ⟨_, _, h | h⟩
  · cases h
  · rw [h]; rfl
  · rw [sansComma, if_pos h]

theorem accepted {S : Syn} {f : Form} (h : Means S f) : Accepted S f := by
  induction h with
  | nil =>
    intro u rest hs
    rcases hs with ⟨rfl, rfl⟩ | ⟨rfl, _, rfl | h⟩
    · exact ⟨1, rfl⟩
    · exact ⟨1, rfl⟩
    · refine ⟨1, ?_⟩
      rcases rest with _ | ⟨t, rest⟩
      · rfl
      · simp only [begins, List.head?_cons, Option.any_some] at h
        rw [List.nil_append, parseInner.eq_def]
        simp [peekComma_eq, h]
  | word h _ ih => exact fun u rest hs => inner_cons hs.head ⟨1, one_word S h _⟩ (ih u rest hs.tail)
  | quoted _ ih => exact fun u rest hs => inner_cons hs.head ⟨1, rfl⟩ (ih u rest hs.tail)
  | group _ _ ih1 ih2 =>
    intro u rest hs
    obtain ⟨n, hn⟩ := accepted_all ih1
    refine inner_cons hs.head ⟨n + 1, ?_⟩ (ih2 u rest hs.tail)
    rw [parseOne.eq_def]
    simp [hn]
  | alone h _ ih => exact fun u rest hs => inner_cons hs.head ⟨1, one_alone S _ _ (alone_append h hs.tail)⟩ (ih u rest hs.tail)
  | escape _ ih => exact fun u rest hs => inner_cons hs.head ⟨1, rfl⟩ (ih u rest hs.tail.tail)
  | control hk h _ ih =>
    intro u rest hs
    refine inner_cons hs.head ⟨2, ?_⟩ (ih u rest hs.tail.tail)
    simp only [List.append_eq, List.cons_append]
    rw [one_function]
    exact function_control S _ _ _ _ (fromChar_of_mem hk) (begins_append h hs.tail.tail)
  | str _ _ ih1 ih2 =>
    intro u rest hs
    obtain ⟨n, hn⟩ := ih1
    refine inner_cons hs.head ⟨n + 2, ?_⟩ (ih2 u rest hs.tail.tail.tail)
    simp only [List.append_eq, List.cons_append]
    rw [one_function, parseFunction.eq_def]
    simp [hn]
    rfl
  | name h _ ih =>
    intro u rest hs
    refine inner_cons hs.head ⟨1, ?_⟩ (ih u rest hs.tail.tail)
    simp [parseOne, h]
    rfl
  | paren _ _ ih1 ih2 =>
    intro u rest hs
    obtain ⟨n, hn⟩ := ih1
    refine inner_cons hs.head ⟨n + 1, ?_⟩ (ih2 u rest hs.tail.tail)
    have hn' := hn
    simp only [through] at hn'
    simp [parseOne, Macro.join, hn']
  | literal => exact ⟨1, rfl⟩
  | eval h1 h2 h3 =>
    refine ⟨1, ?_⟩
    rename_i cur ts e
    rw [parseExpression.eq_def]
    have hl : ∀ w : String, w ∈ ["if", "for", "match", "let", "ref"] → startsWith w ts = false := by
      intro w hw
      rw [startsWith_eq]
      rcases ts with _ | ⟨t, ts⟩
      · rfl
      · simp only [begins, List.head?_cons, Option.any_some, isLead, Bool.or_eq_false_iff] at h1 ⊢
        simp only [List.mem_cons, List.not_mem_nil, or_false] at hw
        rcases hw with rfl | rfl | rfl | rfl | rfl <;> simp_all
    simp only [hl "if" (by simp), hl "for" (by simp), hl "match" (by simp), hl "let" (by simp), hl "ref" (by simp),
      Bool.false_eq_true, if_false]
    rw [(whole_iff _ _ _).2 h3]
    rfl
  | ifThen he _ ih =>
    obtain ⟨n, hn⟩ := ih
    exact ⟨n + 1, condition_of_body he hn⟩
  | ifElse he _ _ ih1 ih2 =>
    obtain ⟨n, hn⟩ := accepted_all ih1
    obtain ⟨m, hm⟩ := accepted_all ih2
    refine ⟨max n m + 2, ?_⟩
    show parseCondition S (max n m + 1) _ _ = _
    rw [parseCondition.eq_def]
    simp only [List.tail_cons, he, Option.bind_eq_bind, Option.bind_some]
    simp [fatArrow, all_mono S _ (Nat.le_max_left n m) _ hn, all_mono S _ (Nat.le_max_right n m) _ hm]
  | loop hp he hj _ ih =>
    obtain ⟨n, hn⟩ := ih
    refine ⟨n + 2, ?_⟩
    show parseLoop S (n + 1) _ _ = _
    rw [parseLoop.eq_def]
    simp [hp, startsWith, he, ← startsWith_eq] at hj ⊢
    simp [hj, hn]
  | joined hp he _ _ ih1 ih2 =>
    obtain ⟨n, hn⟩ := accepted_all ih1
    obtain ⟨m, hm⟩ := ih2
    refine ⟨max n m + 2, ?_⟩
    show parseLoop S (max n m + 1) _ _ = _
    rw [parseLoop.eq_def]
    simp [hp, startsWith, he, all_mono S _ (Nat.le_max_left n m) _ hn, body_mono S _ (Nat.le_max_right n m) _ hm]
  | select he _ ih =>
    obtain ⟨n, hn⟩ := ih
    refine ⟨n + 1, ?_⟩
    show Option.bind (S.expr _) _ = _
    rw [List.tail_cons, he]
    simp [hn]
  | bind hp he =>
    refine ⟨1, ?_⟩
    show parseLet S _ _ = _
    simp only [parseLet, List.tail_cons, hp, Option.bind_eq_bind, Option.bind_some, (whole_iff _ _ _).2 he]
  | scope hb hc =>
    refine ⟨1, ?_⟩
    rename_i cur c c1 b ts code
    have hx : parseExpression S 1 cur (.ident c "ref".toList :: .ident c1 b :: ts) = parseScope S cur (.ident c1 b :: ts) := by
      rw [parseExpression.eq_def]
      simp [startsWith]
    rw [hx]
    have hd : (b != ['_']) = decide (b ≠ ['_']) := by by_cases h : b = ['_'] <;> simp [h]
    rw [parseScope.eq_def]
    simp only [hb, if_true]
    rcases hc with ⟨a1, a2, j, rfl⟩ | ⟨a1, rfl⟩
    · rw [← hd]; rfl
    · rw [← hd]
  | behind _ ih =>
    obtain ⟨n, hn⟩ := accepted_all ih
    exact ⟨n + 1, hn⟩
  | braces _ ih =>
    obtain ⟨n, hn⟩ := accepted_all ih
    exact ⟨n + 1, hn⟩
  | noArms => exact ⟨1, rfl⟩
  | armBlock ht hp hg hr _ _ ih1 ih2 =>
    obtain ⟨n, hn⟩ := accepted_all ih1
    obtain ⟨m, hm⟩ := ih2
    refine ⟨max n m + 1, ?_⟩
    rw [parseArms.eq_3 _ _ _ ht]
    subst hr
    simp only [hp, Option.bind_eq_bind, Option.bind_some, guardOf_of hg, fatArrow_arrow, dropComma_eq,
      all_mono S _ (Nat.le_max_left n m) _ hn, arms_mono S _ (Nat.le_max_right n m) _ hm]
  | armParen ht hp hg hr _ _ ih1 ih2 =>
    obtain ⟨n, hn⟩ := accepted_all ih1
    obtain ⟨m, hm⟩ := ih2
    refine ⟨max n m + 1, ?_⟩
    rw [parseArms.eq_3 _ _ _ ht]
    subst hr
    simp only [hp, Option.bind_eq_bind, Option.bind_some, guardOf_of hg, fatArrow_arrow, dropComma_eq,
      all_mono S _ (Nat.le_max_left n m) _ hn, arms_mono S _ (Nat.le_max_right n m) _ hm]
  | armLine ht hp hg hb hq _ _ ih1 ih2 =>
    rename_i r _ _ _ _ _
    obtain ⟨n, hn⟩ := ih1 true _ (split_comma _)
    rw [List.takeWhile_append_dropWhile] at hn
    obtain ⟨m, hm⟩ := ih2
    refine ⟨max n m + 1, ?_⟩
    rw [parseArms.eq_3 _ _ _ ht]
    simp only [hp, Option.bind_eq_bind, Option.bind_some, guardOf_of hg, fatArrow_arrow]
    split
    · simp [begins, isBrace] at hb
    · simp [begins, isParen] at hq
    · rw [inner_mono S _ _ (Nat.le_max_left n m) _ hn]
      simp only [Option.bind_some]
      rw [dropComma_dropWhile, arms_mono S _ (Nat.le_max_right n m) _ hm]
      rfl
  | noParts => exact ⟨1, rfl⟩
  | plain h _ ih =>
    obtain ⟨n, hn⟩ := ih
    refine ⟨n + 1, ?_⟩
    rw [parseParts.eq_def]
    dsimp only
    split
    all_goals first
      | (rename_i heq; cases heq; exact absurd rfl (h _ _))
      | (rename_i heq; cases heq; done)
      | simp_all
  | dollar _ ih =>
    obtain ⟨n, hn⟩ := ih
    refine ⟨n + 1, ?_⟩
    simp [parseParts, hn, Macro.join, through]
  | constant _ ih =>
    obtain ⟨n, hn⟩ := ih
    refine ⟨n + 1, ?_⟩
    simp [parseParts, hn, Macro.join, through]
  | raw h he _ ih =>
    obtain ⟨n, hn⟩ := ih
    refine ⟨n + 1, ?_⟩
    simp only [parseParts, hn, Macro.join, through, if_true, Option.bind_eq_bind, Option.bind_some]
    rw [(whole_iff _ _ _).2 he]
    rfl
  | value h _ ih =>
    obtain ⟨n, hn⟩ := ih
    refine ⟨n + 1, ?_⟩
    simp [parseParts, hn, Macro.join, through, h]
  | stream _ _ ih1 ih2 =>
    obtain ⟨n, hn⟩ := accepted_all ih1
    obtain ⟨m, hm⟩ := ih2
    refine ⟨max n m + 1, ?_⟩
    simp [parseParts, all_mono S _ (Nat.le_max_left n m) _ hn, parts_mono S _ (Nat.le_max_right n m) _ hm,
      Macro.join, through, firstSpan_eq]

/-! ## Everything accepted is in the grammar -/

/-- Looks the same from in front, or is empty. -/
def Like (r r' : List TT) : Prop := r' = [] ∨ r'.head? = r.head?

theorem like_refl (r : List TT) : Like r r := .inr rfl

theorem like_take (r : List TT) : Like r (r.takeWhile (fun t => !isComma t)) := by
  rcases r with _ | ⟨t, r⟩
  · exact .inl rfl
  · by_cases h : isComma t = true <;> simp [Like, h]

theorem Like.paren {r r' : List TT} (h : Like r r') (hr : begins isParen r = false) : begins isParen r' = false := by
  rcases h with rfl | h
  · rfl
  · rw [begins, h]; exact hr

theorem Like.alone {S : Syn} {r r' : List TT} (h : Like r r') (hr : Alone S r) : Alone S r' := by
  rcases h with rfl | h
  · trivial
  · rcases r with _ | ⟨t, r⟩
    · rw [List.head?_nil, List.head?_eq_none_iff] at h; subst h; exact hr
    · rcases r' with _ | ⟨t', r'⟩
      · trivial
      · simp only [List.head?_cons, Option.some.injEq] at h
        subst h
        cases t' <;> exact hr

/-- Tokens `front` are read as the node, whatever follows that looks like `r`. -/
def Front (S : Syn) (front r : List TT) (node : Node (List TT)) : Prop :=
  ∀ r' ns, Like r r' → Means S (.nodes r' ns) → Means S (.nodes (front ++ r') (node :: ns))

/-- What is accepted with some fuel is in the grammar. -/
structure Sound (S : Syn) (n : Nat) : Prop where
  inner : ∀ u ts ns rest, parseInner S n u ts = some (ns, rest) →
    (u = false → rest = [] ∧ Means S (.nodes ts ns)) ∧
    (u = true → rest = ts.dropWhile (fun t => !isComma t) ∧ Means S (.nodes (ts.takeWhile (fun t => !isComma t)) ns))
  all : ∀ ts ns, parseAll S n ts = some ns → Means S (.nodes ts ns)
  one : ∀ t ts node r, parseOne S n (t :: ts) = some (node, r) →
    ∃ front, ts = front ++ r ∧ (∀ t ∈ front, isComma t = false) ∧ Front S (t :: front) r node
  function : ∀ a b name ts node r, parseFunction S n a b name ts = some (node, r) →
    ∃ front, ts = front ++ r ∧ (∀ t ∈ front, isComma t = false) ∧
      ∀ j, Front S (.punct a '$' j :: .group b .bracket name :: front) r node
  expression : ∀ cur ts node, parseExpression S n cur ts = some node → Means S (.inside cur ts node)
  condition : ∀ cur c ts node, parseCondition S n cur ts = some node →
    Means S (.inside cur (.ident c "if".toList :: ts) node)
  loop : ∀ cur c ts node, parseLoop S n cur ts = some node → Means S (.inside cur (.ident c "for".toList :: ts) node)
  body : ∀ ts ns, parseBody S n ts = some ns → Means S (.body ts ns)
  arms : ∀ ts as, parseArms S n ts = some as → Means S (.arms ts as)
  parts : ∀ ts ps, parseParts S n ts = some ps → Means S (.parts ts ps)

theorem starts_split {w : String} {ts : List TT} (h : startsWith w ts = true) : ∃ c r, ts = .ident c w.toList :: r := by
  rcases ts with _ | ⟨t, ts⟩
  · cases h
  · cases t with
    | ident c name => simp only [startsWith, beq_iff_eq] at h; subst h; exact ⟨_, _, rfl⟩
    | _ => cases h

theorem bind_some {α β : Type} {a : Option α} {f : α → Option β} {y : β} (h : a.bind f = some y) :
    ∃ x, a = some x ∧ f x = some y := Option.bind_eq_some_iff.1 h

theorem sound_inner {S : Syn} {n : Nat} (ih : Sound S n) (u : Bool) (ts : List TT) (ns) (rest : List TT)
    (h : parseInner S (n + 1) u ts = some (ns, rest)) :
    (u = false → rest = [] ∧ Means S (.nodes ts ns)) ∧
    (u = true → rest = ts.dropWhile (fun t => !isComma t) ∧ Means S (.nodes (ts.takeWhile (fun t => !isComma t)) ns)) := by
  rw [parseInner.eq_def] at h
  dsimp only at h
  split at h
  · cases h
    exact ⟨fun _ => ⟨rfl, .nil⟩, fun _ => ⟨rfl, .nil⟩⟩
  · rename_i t r
    split at h
    · rename_i hu
      rw [peekComma_eq, Bool.and_eq_true] at hu
      cases h
      refine ⟨fun h => (by rw [h] at hu; cases hu.1), fun _ => ?_⟩
      simp only [hu.2, Bool.not_true, Bool.false_eq_true, not_false_eq_true, List.dropWhile_cons_of_neg,
        List.takeWhile_cons_of_neg]
      exact ⟨trivial, .nil⟩
    · rename_i hu
      rw [peekComma_eq] at hu
      obtain ⟨⟨node, r'⟩, h1, h⟩ := bind_some h
      obtain ⟨⟨ms, rest'⟩, h2, h⟩ := bind_some h
      cases h
      obtain ⟨front, rfl, hc, hf⟩ := ih.one _ _ _ _ h1
      obtain ⟨k1, k2⟩ := ih.inner _ _ _ _ h2
      refine ⟨fun hu => ?_, fun hu => ?_⟩
      · obtain ⟨rfl, hm⟩ := k1 hu
        exact ⟨rfl, hf _ _ (like_refl _) hm⟩
      · subst hu
        obtain ⟨rfl, hm⟩ := k2 rfl
        have ht : isComma t = false := by simpa using hu
        have hall : ∀ t' ∈ t :: front, (!isComma t') = true := by
          intro t' ht'
          rcases List.mem_cons.1 ht' with rfl | ht'
          · simp [ht]
          · simp [hc t' ht']
        have e1 := List.dropWhile_append_of_pos (l₂ := r') hall
        have e2 := List.takeWhile_append_of_pos (l₂ := r') hall
        rw [List.cons_append] at e1 e2
        rw [e1, e2]
        exact ⟨rfl, hf _ _ (like_take _) hm⟩

theorem sound_one {S : Syn} {n : Nat} (ih : Sound S n) (t : TT) (ts : List TT) (node) (r : List TT)
    (h : parseOne S (n + 1) (t :: ts) = some (node, r)) :
    ∃ front, ts = front ++ r ∧ (∀ t ∈ front, isComma t = false) ∧ Front S (t :: front) r node := by
  rw [parseOne.eq_def] at h
  dsimp only at h
  split at h
  · cases h
  · rename_i heq
    cases heq
    cases h
    exact ⟨[.punct _ '$' _], rfl, by simp [isComma], fun r' ns hl hm => .escape hm⟩
  · rename_i heq
    cases heq
    obtain ⟨front, rfl, hc, hf⟩ := ih.function _ _ _ _ _ _ h
    refine ⟨.group _ _ _ :: front, rfl, ?_, fun r' ns hl hm => hf _ _ _ hl hm⟩
    intro t ht
    rcases List.mem_cons.1 ht with rfl | ht
    · rfl
    · exact hc t ht
  · rename_i heq
    cases heq
    obtain ⟨node', h1, h⟩ := bind_some h
    cases h
    exact ⟨[.group _ _ _], rfl, by simp [isComma], fun r' ns hl hm => .paren (ih.expression _ _ _ h1) hm⟩
  · rename_i heq
    cases heq
    split at h
    · rename_i hk
      cases h
      exact ⟨[], rfl, by simp, fun r' ns hl hm => .alone (hl.alone hk) hm⟩
    · rename_i hk
      cases h
      exact ⟨[.ident _ _], rfl, by simp [isComma], fun r' ns hl hm => .name (by simpa using hk) hm⟩
  · rename_i heq
    cases heq
    cases h
    exact ⟨[], rfl, by simp, fun r' ns hl hm => .quoted hm⟩
  · rename_i heq
    cases heq
    obtain ⟨ms, h1, h⟩ := bind_some h
    cases h
    exact ⟨[], rfl, by simp, fun r' ns hl hm => .group (ih.all _ _ h1) hm⟩
  · rename_i heq
    cases heq
    cases h
    exact ⟨[], rfl, by simp, fun r' ns hl hm => .word (t := .ident _ _) rfl hm⟩
  · rename_i cur c j r' n1 n2 n3 n4 heq
    cases heq
    cases h
    refine ⟨[], rfl, by simp, fun r' ns hl hm => ?_⟩
    by_cases hc : c = '$'
    · subst hc
      refine .alone (hl.alone ?_) hm
      rcases ts with _ | ⟨t, ts⟩
      · trivial
      · cases t with
        | ident b name => exact (n4 _ _ _ rfl rfl).elim
        | punct b c k =>
          show c ≠ '$'
          rintro rfl
          exact n1 _ _ _ rfl rfl
        | group b d content =>
          cases d with
          | parenthesis => exact (n3 _ _ _ rfl rfl).elim
          | brace => exact rfl
          | bracket => exact (n2 _ _ _ rfl rfl).elim
        | _ => trivial
    · exact .word (t := .punct _ _ _) (by simp [wordOf, hc]) hm
  · rename_i heq
    cases heq
    cases h
    exact ⟨[], rfl, by simp, fun r' ns hl hm => .word (t := .char _ _ _) rfl hm⟩
  · rename_i heq
    cases heq
    cases h
    exact ⟨[], rfl, by simp, fun r' ns hl hm => .word (t := .lit _ _) rfl hm⟩

theorem sound_function {S : Syn} {n : Nat} (ih : Sound S n) (a b : Cur) (name ts : List TT) (node) (r : List TT)
    (h : parseFunction S (n + 1) a b name ts = some (node, r)) :
    ∃ front, ts = front ++ r ∧ (∀ t ∈ front, isComma t = false) ∧
      ∀ j, Front S (.punct a '$' j :: .group b .bracket name :: front) r node := by
  rw [parseFunction.eq_def] at h
  dsimp only at h
  split at h
  · split at h
    · cases h
    · rename_i hk hn
      cases h
      refine ⟨[], rfl, by simp, fun j r' ns hl hm => .control (mem_of_fromChar hk) (hl.paren ?_) hm⟩
      rcases r with _ | ⟨t, ts⟩
      · rfl
      · cases t with
        | group b d content =>
          cases d with
          | parenthesis => exact (hn _ _ _ rfl).elim
          | _ => rfl
        | _ => rfl
    · cases h
  · split at h
    · rename_i hw
      subst hw
      obtain ⟨ps, h1, h⟩ := bind_some h
      cases h
      exact ⟨[.group _ _ _], rfl, by simp [isComma], fun j r' ns hl hm => .str (ih.parts _ _ h1) hm⟩
    · cases h
  · cases h

theorem sound_expression {S : Syn} {n : Nat} (ih : Sound S n) (cur : Cur) (ts : List TT) (node)
    (h : parseExpression S (n + 1) cur ts = some node) : Means S (.inside cur ts node) := by
  rw [parseExpression.eq_def] at h
  dsimp only at h
  split at h
  · rename_i hw
    obtain ⟨c, r, rfl⟩ := starts_split hw
    exact ih.condition _ _ _ _ h
  · rename_i w1
    split at h
    · rename_i hw
      obtain ⟨c, r, rfl⟩ := starts_split hw
      exact ih.loop _ _ _ _ h
    · rename_i w2
      split at h
      · rename_i hw
        obtain ⟨c, r, rfl⟩ := starts_split hw
        obtain ⟨⟨e, r'⟩, he, h⟩ := bind_some h
        dsimp only at h
        split at h
        · obtain ⟨as, ha, h⟩ := bind_some h
          cases h
          exact .select he (ih.arms _ _ ha)
        · cases h
      · rename_i w3
        split at h
        · rename_i hw
          obtain ⟨c, r, rfl⟩ := starts_split hw
          obtain ⟨⟨pat, r'⟩, hp, h⟩ := bind_some h
          dsimp only at h
          split at h
          · obtain ⟨e, he, h⟩ := bind_some h
            cases h
            exact .bind hp ((whole_iff _ _ _).1 he)
          · cases h
        · rename_i w4
          split at h
          · rename_i hw
            obtain ⟨c, r, rfl⟩ := starts_split hw
            rw [List.tail_cons, parseScope.eq_def] at h
            split at h
            · rename_i name us
              split at h
              · rename_i hb
                have hd : (name != ['_']) = decide (name ≠ ['_']) := by by_cases h : name = ['_'] <;> simp [h]
                rw [hd] at h
                split at h
                · cases h
                  exact .scope hb (.inr ⟨_, rfl⟩)
                · cases h
                · obtain ⟨code, hf, h⟩ := Option.map_eq_some_iff.1 h
                  cases h
                  exact .scope hb (.inl (arrow_of_fatArrow hf))
              · cases h
            · cases h
          · rename_i w5
            split at h
            · cases h
              exact .literal
            · rename_i hn
              obtain ⟨e, he, h⟩ := Option.map_eq_some_iff.1 h
              cases h
              refine .eval ?_ hn ((whole_iff _ _ _).1 he)
              rw [startsWith_eq] at w1 w2 w3 w4 w5
              rcases ts with _ | ⟨t, ts⟩
              · rfl
              · simp only [begins, List.head?_cons, Option.any_some, isLead] at *
                simp [w1, w2, w3, w4, w5]

theorem sound_condition {S : Syn} {n : Nat} (ih : Sound S n) (cur c : Cur) (ts : List TT) (node)
    (h : parseCondition S (n + 1) cur ts = some node) : Means S (.inside cur (.ident c "if".toList :: ts) node) := by
  rw [parseCondition.eq_def] at h
  dsimp only at h
  obtain ⟨⟨e, r⟩, he, h⟩ := bind_some h
  dsimp only at h
  split at h
  · rename_i hf
    obtain ⟨a, b, j, rfl⟩ := arrow_of_fatArrow hf
    obtain ⟨ns, hn, h⟩ := bind_some h
    cases h
    exact .ifThen he (.behind (ih.all _ _ hn))
  · split at h
    · obtain ⟨ns, hn, h⟩ := bind_some h
      cases h
      exact .ifThen he (.braces (ih.all _ _ hn))
    · split at h
      · rename_i hw
        subst hw
        obtain ⟨ns, hn, h⟩ := bind_some h
        obtain ⟨ms, hm, h⟩ := bind_some h
        cases h
        exact .ifElse he (ih.all _ _ hn) (ih.all _ _ hm)
      · cases h
    · cases h

theorem sound_loop {S : Syn} {n : Nat} (ih : Sound S n) (cur c : Cur) (ts : List TT) (node)
    (h : parseLoop S (n + 1) cur ts = some node) : Means S (.inside cur (.ident c "for".toList :: ts) node) := by
  rw [parseLoop.eq_def] at h
  dsimp only at h
  obtain ⟨⟨pat, r⟩, hp, h⟩ := bind_some h
  dsimp only at h
  split at h
  · rename_i hw
    obtain ⟨c1, r, rfl⟩ := starts_split hw
    obtain ⟨⟨iter, r'⟩, he, h⟩ := bind_some h
    rw [List.tail_cons] at he
    dsimp only at h
    split at h
    · rename_i hj
      obtain ⟨c2, r', rfl⟩ := starts_split hj
      rw [List.tail_cons] at h
      split at h
      · obtain ⟨ms, hm, h⟩ := bind_some h
        obtain ⟨ns, hn, h⟩ := bind_some h
        cases h
        exact .joined hp he (ih.all _ _ hm) (ih.body _ _ hn)
      · cases h
    · rename_i hj
      rw [startsWith_eq] at hj
      obtain ⟨ns, hn, h⟩ := bind_some h
      cases h
      exact .loop hp he (by simpa using hj) (ih.body _ _ hn)
  · cases h

theorem sound_body {S : Syn} {n : Nat} (ih : Sound S n) (ts : List TT) (ns)
    (h : parseBody S (n + 1) ts = some ns) : Means S (.body ts ns) := by
  rw [parseBody.eq_def] at h
  dsimp only at h
  split at h
  · rename_i hf
    obtain ⟨a, b, j, rfl⟩ := arrow_of_fatArrow hf
    exact .behind (ih.all _ _ h)
  · split at h
    · exact .braces (ih.all _ _ h)
    · cases h

theorem sound_arms {S : Syn} {n : Nat} (ih : Sound S n) (ts : List TT) (as)
    (h : parseArms S (n + 1) ts = some as) : Means S (.arms ts as) := by
  rcases ts with _ | ⟨t, ts⟩
  · cases h; exact .noArms
  have ht : t :: ts ≠ [] := by simp
  rw [parseArms.eq_3 _ _ _ ht] at h
  obtain ⟨⟨pat, us⟩, hp, h1⟩ := bind_some h
  clear h
  dsimp only at h1
  obtain ⟨⟨guard, vs⟩, hg, h2⟩ := bind_some h1
  clear h1
  dsimp only at h2
  obtain ⟨r, hf, h⟩ := bind_some h2
  clear h2
  obtain ⟨a, b, j, rfl⟩ := arrow_of_fatArrow hf
  have hg := guarded_of hg
  split at h
  · obtain ⟨ns, hn, h⟩ := bind_some h
    obtain ⟨bs, hb, h⟩ := bind_some h
    cases h
    rw [dropComma_eq] at hb
    exact .armBlock ht hp hg rfl (ih.all _ _ hn) (ih.arms _ _ hb)
  · obtain ⟨ns, hn, h⟩ := bind_some h
    obtain ⟨bs, hb, h⟩ := bind_some h
    cases h
    rw [dropComma_eq] at hb
    exact .armParen ht hp hg rfl (ih.all _ _ hn) (ih.arms _ _ hb)
  · rename_i n1 n2
    obtain ⟨⟨ns, rest⟩, hn, h⟩ := bind_some h
    obtain ⟨bs, hb, h⟩ := bind_some h
    cases h
    obtain ⟨rfl, hm⟩ := (ih.inner _ _ _ _ hn).2 rfl
    rw [dropComma_dropWhile] at hb
    refine .armLine ht hp hg ?_ ?_ hm (ih.arms _ _ hb)
    · rcases r with _ | ⟨t, r⟩
      · rfl
      · cases t with
        | group b d content =>
          cases d with
          | brace => exact (n1 _ _ _ rfl).elim
          | _ => rfl
        | _ => rfl
    · rcases r with _ | ⟨t, r⟩
      · rfl
      · cases t with
        | group b d content =>
          cases d with
          | parenthesis => exact (n2 _ _ _ rfl).elim
          | _ => rfl
        | _ => rfl

theorem sound_parts {S : Syn} {n : Nat} (ih : Sound S n) (ts : List TT) (ps)
    (h : parseParts S (n + 1) ts = some ps) : Means S (.parts ts ps) := by
  rw [parseParts.eq_def] at h
  dsimp only at h
  split at h
  · cases h; exact .noParts
  · obtain ⟨qs, hq, h⟩ := bind_some h
    cases h
    exact .dollar (ih.parts _ _ hq)
  · split at h
    · rename_i hw
      subst hw
      obtain ⟨qs, hq, h⟩ := bind_some h
      split at h
      · cases h
        exact .constant (ih.parts _ _ hq)
      · rename_i hn
        obtain ⟨e, he, h⟩ := bind_some h
        cases h
        exact .raw hn ((whole_iff _ _ _).1 he) (ih.parts _ _ hq)
    · cases h
  · cases h
  · obtain ⟨ns, hn, h⟩ := bind_some h
    obtain ⟨qs, hq, h⟩ := bind_some h
    cases h
    rw [firstSpan_eq]
    exact .stream (ih.all _ _ hn) (ih.parts _ _ hq)
  · split at h
    · cases h
    · rename_i hk
      obtain ⟨qs, hq, h⟩ := bind_some h
      cases h
      exact .value (by simpa using hk) (ih.parts _ _ hq)
  · cases h
  · rename_i hn
    obtain ⟨qs, hq, h⟩ := bind_some h
    cases h
    exact .plain (fun c j hx => hn _ _ hx) (ih.parts _ _ hq)

theorem sound (S : Syn) (n : Nat) : Sound S n := by
  induction n with
  | zero =>
    constructor <;> intros <;> rename_i h <;>
      simp only [parseInner, parseAll, parseOne, parseFunction, parseExpression, parseCondition, parseLoop,
        parseBody, parseArms, parseParts] at h <;> cases h
  | succ n ih =>
    refine ⟨sound_inner ih, ?_, sound_one ih, sound_function ih, sound_expression ih, sound_condition ih,
      sound_loop ih, sound_body ih, sound_arms ih, sound_parts ih⟩
    intro ts ns h
    rw [parseAll.eq_def] at h
    obtain ⟨⟨ms, r⟩, h1, h⟩ := bind_some h
    cases h
    exact ((ih.inner _ _ _ _ h1).1 rfl).2

theorem parses_iff (S : Syn) (ts : List TT) (ns) : Parses S ts ns ↔ Means S (.nodes ts ns) :=
  ⟨fun ⟨n, h⟩ => (sound S n).all ts ns h, fun h => accepted_all (accepted h)⟩

/-! ## Quoted tokens -/

mutual

/-- The nodes of tokens with doubled dollars. -/
def wrapped : List TT → List (Node (List TT))
  | [] => []
  | t :: ts => wrappedOne t :: wrapped ts

def wrappedOne : TT → Node (List TT)
  | .ident cur name => .tree cur name
  | .punct cur c _ => if c = '$' then .escape cur else .tree cur [c]
  | .str cur s _ => .quoted cur s
  | .char cur _ text => .tree cur text
  | .lit cur text => .tree cur text
  | .group cur d content => .group cur d (wrapped content)

end

mutual

theorem means_doubled (S : Syn) (mid : Cur → Pos) : ∀ ts : List TT, Means S (.nodes (doubled mid ts) (wrapped ts))
  | [] => .nil
  | t :: ts => means_doubledOne S mid t (doubled mid ts) (wrapped ts) (means_doubled S mid ts)

theorem means_doubledOne (S : Syn) (mid : Cur → Pos) : ∀ (t : TT) (us : List TT) (ms), Means S (.nodes us ms) →
    Means S (.nodes (doubledOne mid t ++ us) (wrappedOne t :: ms))
  | .ident cur name, us, ms, h => .word (t := .ident cur name) rfl h
  | .punct cur c j, us, ms, h => by
    by_cases hc : c = '$'
    · subst hc
      simp only [doubledOne, wrappedOne, if_true]
      exact Means.escape h
    · simp only [doubledOne, wrappedOne, if_neg hc]
      exact .word (t := .punct cur c j) (by simp [wordOf, hc]) h
  | .str cur s text, us, ms, h => .quoted h
  | .char cur v text, us, ms, h => .word (t := .char cur v text) rfl h
  | .lit cur text, us, ms, h => .word (t := .lit cur text) rfl h
  | .group cur d content, us, ms, h => .group (means_doubled S mid content) h

end

section

variable {ι : Type}

theorem nodes_concat {E : Type} (e : Enc ι E) (as bs : List (Node E)) :
    Macro.nodes e (as ++ bs) = (do Macro.nodes (← Macro.nodes e as) bs) := by
  induction as generalizing e with
  | nil => rfl
  | cons a as ih =>
    rw [List.cons_append, Macro.nodes, Macro.nodes, bind_assoc]
    exact bind_congr (fun e' => ih e')

theorem nodes_one {E : Type} (e : Enc ι E) (n : Node E) : Macro.nodes e [n] = Macro.node e n := by
  rw [Macro.nodes]
  exact bind_pure _

mutual

theorem nodes_wrapped : ∀ (ts : List TT) (e : Enc ι (List TT)), Macro.nodes e (wrapped ts) = Macro.nodes e (spelled ts)
  | [], _ => rfl
  | t :: ts, e => by
    rw [wrapped, spelled, Macro.nodes, nodes_concat, ← node_wrapped t e]
    exact bind_congr (fun e' => nodes_wrapped ts e')

theorem node_wrapped : ∀ (t : TT) (e : Enc ι (List TT)), Macro.node e (wrappedOne t) = Macro.nodes e (spelledOne t)
  | .ident cur name, e => by
    rw [wrappedOne, spelledOne, nodes_one]
  | .punct cur c j, e => by
    by_cases hc : c = '$'
    · subst hc
      rw [wrappedOne, spelledOne, nodes_one, if_pos rfl, Macro.node, Macro.node]
    · rw [wrappedOne, spelledOne, nodes_one, if_neg hc]
  | .str cur s text, e => by
    rw [wrappedOne, spelledOne, nodes_one]
  | .char cur v text, e => by
    rw [wrappedOne, spelledOne, nodes_one]
  | .lit cur text, e => by
    rw [wrappedOne, spelledOne, nodes_one]
  | .group cur d content, e => by
    rw [wrappedOne, spelledOne, Macro.node, List.cons_append, Macro.nodes]
    have h1 : Macro.node e (.tree ⟨cur.start, ⟨cur.start.line, cur.start.column + 1⟩⟩ [opener d]) =
        e.encode cur.firstCharacter (.delimiterOpen d) := by
      cases d <;> rfl
    rw [h1]
    refine bind_congr (fun e' => ?_)
    rw [nodes_concat, ← nodes_wrapped content e']
    refine bind_congr (fun e'' => ?_)
    rw [Macro.nodes]
    have h2 : Macro.node e'' (.tree ⟨⟨cur.stop.line, cur.stop.column - 1⟩, cur.stop⟩ [closer d]) =
        e''.encode cur.lastCharacter (.delimiterClose d) := by
      cases d <;> rfl
    rw [h2]
    exact (bind_pure _).symm

end

end

mutual

theorem doubled_plain (mid : Cur → Pos) : ∀ ts : List TT, dollars ts = false → doubled mid ts = ts
  | [], _ => rfl
  | t :: ts, h => by
    rw [dollars, Bool.or_eq_false_iff] at h
    rw [doubled, doubledOne_plain mid t h.1, doubled_plain mid ts h.2]
    rfl

theorem doubledOne_plain (mid : Cur → Pos) : ∀ t : TT, dollarIn t = false → doubledOne mid t = [t]
  | .ident .., _ => rfl
  | .punct cur c j, h => by
    have hc : c ≠ '$' := by simpa [dollarIn] using h
    simp [doubledOne, hc]
  | .str .., _ => rfl
  | .char .., _ => rfl
  | .lit .., _ => rfl
  | .group cur d content, h => by rw [doubledOne, doubled_plain mid content h]

end

/-! ## One input behind another -/

theorem nodes_nil {S : Syn} {ns} (h : Means S (.nodes [] ns)) : ns = [] := by
  cases h
  rfl

theorem Apart.tail {n : Node (List TT)} {ns} {us : List TT} (h : Apart (n :: ns) us) : Apart ns us := by
  rcases ns with _ | ⟨m, ns⟩
  · exact ⟨fun c hc => (nomatch hc), fun ⟨c, k, hc⟩ => (nomatch hc)⟩
  · exact h

theorem means_append {S : Syn} {us : List TT} {ms} (hu : Means S (.nodes us ms)) {f : Form} (h : Means S f) :
    ∀ ts ns, f = .nodes ts ns → Apart ns us → Means S (.nodes (ts ++ us) (ns ++ ms)) := by
  induction h with
  | nil => intro ts ns hf ha; cases hf; exact hu
  | word h _ ih => intro ts ns hf ha; cases hf; exact .word h (ih _ _ rfl ha.tail)
  | quoted _ ih => intro ts ns hf ha; cases hf; exact .quoted (ih _ _ rfl ha.tail)
  | group h _ _ ih => intro ts ns hf ha; cases hf; exact .group h (ih _ _ rfl ha.tail)
  | alone h hm ih =>
    intro ts ns hf ha
    cases hf
    refine .alone ?_ (ih _ _ rfl ha.tail)
    rename_i ts _
    rcases ts with _ | ⟨t, ts⟩
    · cases nodes_nil hm
      exact absurd rfl (ha.1 _)
    · cases t <;> exact h
  | escape _ ih => intro ts ns hf ha; cases hf; exact .escape (ih _ _ rfl ha.tail)
  | control hk h hm ih =>
    intro ts ns hf ha
    cases hf
    refine .control hk ?_ (ih _ _ rfl ha.tail)
    rename_i ts _
    rcases ts with _ | ⟨t, ts⟩
    · cases nodes_nil hm
      exact ha.2 ⟨_, _, rfl⟩
    · exact h
  | str h _ _ ih => intro ts ns hf ha; cases hf; exact .str h (ih _ _ rfl ha.tail)
  | name h _ ih => intro ts ns hf ha; cases hf; exact .name h (ih _ _ rfl ha.tail)
  | paren h _ _ ih => intro ts ns hf ha; cases hf; exact .paren h (ih _ _ rfl ha.tail)
  | _ => intro ts ns hf; cases hf

end Genco.Spec.MacroFile
