import Verif.Spec.Rounds
import Verif.Model.Lex

/-!
# The parser ends
-/

set_option autoImplicit false

namespace Genco.Proofs.Rounds

open Genco Macro Spec.MacroFile

theorem countOne_pos (t : TT) : 1 ≤ countOne t := by cases t <;> simp [countOne]; omega

theorem count_tail (ts : List TT) : count ts.tail ≤ count ts := by
  cases ts with
  | nil => exact Nat.le_refl _
  | cons t ts => simp [count]

theorem count_starts {w : String} {ts : List TT} (h : startsWith w ts = true) : count ts.tail + 1 = count ts := by
  unfold startsWith at h
  split at h
  · simp [count, countOne, Nat.add_comm]
  · cases h

theorem count_arrow {ts r : List TT} (h : fatArrow ts = some r) : count r + 2 = count ts := by
  unfold fatArrow at h
  split at h
  · cases h; simp [count, countOne]; omega
  · cases h

theorem count_comma (ts : List TT) : count (dropComma ts) ≤ count ts := by
  cases ts with
  | nil => exact Nat.le_refl _
  | cons t ts => rw [dropComma]; split <;> simp [count]

theorem count_guard {S : Syn} (hS : Takes S) {ts r : List TT} {g} (h : guardOf S ts = some (g, r)) : count r ≤ count ts := by
  unfold guardOf at h
  split at h
  · obtain ⟨p, hp, he⟩ := Option.map_eq_some_iff.1 h
    cases he
    exact Nat.le_trans (hS.fullExpr _ _ _ (show S.fullExpr ts.tail = some (p.1, p.2) from hp)) (count_tail ts)
  · cases h; exact Nat.le_refl _

theorem function_rest {S : Syn} {n : Nat} {a b : Cur} {name r r' : List TT} {node}
    (h : parseFunction S n a b name r = some (node, r')) : count r' ≤ count r := by
  cases n with
  | zero => simp [parseFunction] at h
  | succ n =>
    rw [parseFunction.eq_def] at h
    dsimp only at h
    split at h
    · split at h
      · cases h
      · cases h; exact Nat.le_refl _
      · cases h
    · split at h
      · obtain ⟨ps, -, he⟩ := Option.bind_eq_some_iff.1 h
        cases he
        simp [count]
      · cases h
    · cases h

theorem one_rest {S : Syn} {n : Nat} {ts r : List TT} {node} (h : parseOne S n ts = some (node, r)) : count r < count ts := by
  cases n with
  | zero => simp [parseOne] at h
  | succ n =>
    rw [parseOne.eq_def] at h
    dsimp only at h
    split at h
    · cases h
    · cases h; simp only [count, countOne]; omega
    · have := function_rest h
      simp only [count, countOne]
      omega
    · obtain ⟨ps, -, he⟩ := Option.bind_eq_some_iff.1 h
      cases he
      simp only [count, countOne]; omega
    · split at h <;> cases h <;> simp only [count, countOne] <;> omega
    · cases h; simp only [count, countOne]; omega
    · obtain ⟨ps, -, he⟩ := Option.bind_eq_some_iff.1 h
      cases he
      simp only [count, countOne]; omega
    all_goals cases h; simp only [count, countOne]; omega

theorem inner_rest {S : Syn} : ∀ (n : Nat) {u : Bool} {ts r : List TT} {ns}, parseInner S n u ts = some (ns, r) →
    count r ≤ count ts
  | 0, u, ts, r, ns, h => by simp [parseInner] at h
  | n + 1, u, ts, r, ns, h => by
    rw [parseInner.eq_def] at h
    dsimp only at h
    split at h
    · cases h; exact Nat.le_refl _
    · split at h
      · cases h; exact Nat.le_refl _
      · obtain ⟨⟨node, r1⟩, h1, h⟩ := Option.bind_eq_some_iff.1 h
        obtain ⟨⟨ns', r2⟩, h2, h⟩ := Option.bind_eq_some_iff.1 h
        cases h
        exact Nat.le_trans (inner_rest n h2) (Nat.le_of_lt (one_rest h1))

theorem eq_bind {α β : Type} {a b : Option α} {f g : α → Option β} (h : a = b) (k : ∀ x, a = some x → f x = g x) :
    a.bind f = b.bind g := by
  subst h
  cases a with
  | none => rfl
  | some x => exact k x rfl

/-- One more round changes nothing. -/
structure Enough (S : Syn) (n : Nat) : Prop where
  inner : ∀ u ts, 2 * count ts + 1 ≤ n → parseInner S n u ts = parseInner S (n + 1) u ts
  all : ∀ ts, 2 * count ts + 2 ≤ n → parseAll S n ts = parseAll S (n + 1) ts
  one : ∀ ts, ts ≠ [] → 2 * count ts ≤ n → parseOne S n ts = parseOne S (n + 1) ts
  function : ∀ a b name r, 2 * count r + 1 ≤ n → parseFunction S n a b name r = parseFunction S (n + 1) a b name r
  expression : ∀ cur ts, 2 * count ts + 1 ≤ n → parseExpression S n cur ts = parseExpression S (n + 1) cur ts
  condition : ∀ cur ts, 2 * count ts + 1 ≤ n → parseCondition S n cur ts = parseCondition S (n + 1) cur ts
  loop : ∀ cur ts, 2 * count ts + 1 ≤ n → parseLoop S n cur ts = parseLoop S (n + 1) cur ts
  body : ∀ ts, 2 * count ts + 1 ≤ n → parseBody S n ts = parseBody S (n + 1) ts
  arms : ∀ ts, 2 * count ts + 1 ≤ n → parseArms S n ts = parseArms S (n + 1) ts
  parts : ∀ ts, 2 * count ts + 1 ≤ n → parseParts S n ts = parseParts S (n + 1) ts

theorem enough {S : Syn} (hS : Takes S) (n : Nat) : Enough S n := by
  induction n with
  | zero =>
    refine ⟨fun _ _ h => ?_, fun _ h => ?_, fun ts h0 h => ?_, fun _ _ _ _ h => ?_, fun _ _ h => ?_, fun _ _ h => ?_,
      fun _ _ h => ?_, fun _ h => ?_, fun _ h => ?_, fun _ h => ?_⟩ <;> try omega
    cases ts with
    | nil => exact absurd rfl h0
    | cons t ts =>
      have := countOne_pos t
      simp only [count] at h
      omega
  | succ n ih =>
    have hi := ih.inner
    have ha := ih.all
    have ho := ih.one
    have hf := ih.function
    have he := ih.expression
    have hc := ih.condition
    have hl := ih.loop
    have hb := ih.body
    have hr := ih.arms
    have hp := ih.parts
    constructor
    · intro u ts hn
      rw [parseInner.eq_def S (n + 1), parseInner.eq_def S (n + 1 + 1)]
      dsimp only
      split
      · rfl
      · rename_i t r
        split
        · rfl
        · refine eq_bind (ho _ (List.cons_ne_nil _ _) (by omega)) fun x hx => ?_
          obtain ⟨node, r1⟩ := x
          have := one_rest hx
          exact eq_bind (hi _ _ (by simp only; omega)) fun y _ => rfl
    · intro ts hn
      rw [parseAll, parseAll.eq_def S (n + 1 + 1)]
      exact eq_bind (hi _ _ (by omega)) fun y _ => rfl
    · intro ts h0 hn
      rw [parseOne.eq_def S (n + 1), parseOne.eq_def S (n + 1 + 1)]
      dsimp only
      split
      all_goals try simp only [count, countOne] at hn
      all_goals first
        | rfl
        | exact hf _ _ _ _ (by omega)
        | exact eq_bind (he _ _ (by omega)) fun y _ => rfl
        | exact eq_bind (ha _ (by omega)) fun y _ => rfl
    · intro a b name r hn
      rw [parseFunction.eq_def S (n + 1), parseFunction.eq_def S (n + 1 + 1)]
      dsimp only
      split
      · rfl
      · simp only [count, countOne] at hn
        split
        · exact eq_bind (hp _ (by omega)) fun y _ => rfl
        · rfl
      · rfl
    · intro cur ts hn
      rw [parseExpression.eq_def S (n + 1), parseExpression.eq_def S (n + 1 + 1)]
      dsimp only
      split
      · rename_i h
        have := count_starts h
        exact hc _ _ (by omega)
      · split
        · rename_i h
          have := count_starts h
          exact hl _ _ (by omega)
        · split
          · rename_i h
            have := count_starts h
            refine eq_bind rfl fun y hy => ?_
            obtain ⟨e, r⟩ := y
            have h2 := hS.expr _ _ _ hy
            dsimp only
            split
            · simp only [count, countOne] at h2
              exact eq_bind (hr _ (by omega)) fun y _ => rfl
            · rfl
          · rfl
    · intro cur ts hn
      rw [parseCondition.eq_def S (n + 1), parseCondition.eq_def S (n + 1 + 1)]
      dsimp only
      refine eq_bind rfl fun y hy => ?_
      obtain ⟨e, r⟩ := y
      have h2 := hS.expr _ _ _ hy
      dsimp only
      split
      · rename_i h
        have := count_arrow h
        exact eq_bind (ha _ (by omega)) fun y _ => rfl
      · split
        · simp only [count, countOne] at h2
          exact eq_bind (ha _ (by omega)) fun y _ => rfl
        · simp only [count, countOne] at h2
          split
          · exact eq_bind (ha _ (by omega)) fun y _ => eq_bind (ha _ (by omega)) fun y _ => rfl
          · rfl
        · rfl
    · intro cur ts hn
      rw [parseLoop.eq_def S (n + 1), parseLoop.eq_def S (n + 1 + 1)]
      dsimp only
      refine eq_bind rfl fun y hy => ?_
      obtain ⟨e, r⟩ := y
      have h2 := hS.pat _ _ _ hy
      dsimp only
      split
      · rename_i h
        have h3 := count_starts h
        refine eq_bind rfl fun y hy => ?_
        obtain ⟨e, r⟩ := y
        have h4 := hS.expr _ _ _ hy
        dsimp only
        split
        · rename_i h
          have h5 := count_starts h
          split
          · rename_i heq
            rw [heq] at h5
            simp only [count, countOne] at h5
            exact eq_bind (ha _ (by omega)) fun y _ => eq_bind (hb _ (by omega)) fun y _ => rfl
          · rfl
        · exact eq_bind (hb _ (by omega)) fun y _ => rfl
      · rfl
    · intro ts hn
      rw [parseBody.eq_def S (n + 1), parseBody.eq_def S (n + 1 + 1)]
      dsimp only
      split
      · rename_i h
        have := count_arrow h
        exact ha _ (by omega)
      · split
        · simp only [count, countOne] at hn
          exact ha _ (by omega)
        · rfl
    · intro ts hn
      rw [parseArms.eq_def S (n + 1), parseArms.eq_def S (n + 1 + 1)]
      cases ts with
      | nil => rfl
      | cons t ts =>
        dsimp only
        refine eq_bind rfl fun y hy => ?_
        obtain ⟨e, r⟩ := y
        have h2 := hS.patMulti _ _ _ hy
        refine eq_bind rfl fun y hy => ?_
        obtain ⟨g, r⟩ := y
        have h3 := count_guard hS hy
        refine eq_bind rfl fun y hy => ?_
        have h4 := count_arrow hy
        dsimp only at h3 h4
        split
        · rename_i r'
          simp only [count, countOne] at h4
          have := count_comma r'
          exact eq_bind (ha _ (by omega)) fun y _ => eq_bind (hr _ (by omega)) fun y _ => rfl
        · rename_i r'
          simp only [count, countOne] at h4
          have := count_comma r'
          exact eq_bind (ha _ (by omega)) fun y _ => eq_bind (hr _ (by omega)) fun y _ => rfl
        · refine eq_bind (hi _ _ (by omega)) fun y hy => ?_
          obtain ⟨ns, r5⟩ := y
          have h5 := inner_rest _ hy
          have := count_comma r5
          exact eq_bind (hr _ (by dsimp only; omega)) fun y _ => rfl
    · intro ts hn
      rw [parseParts.eq_def S (n + 1), parseParts.eq_def S (n + 1 + 1)]
      dsimp only
      split
      all_goals simp only [count, countOne] at hn
      all_goals first
        | rfl
        | exact eq_bind (hp _ (by omega)) fun y _ => rfl
        | exact eq_bind (ha _ (by omega)) fun y _ => eq_bind (hp _ (by omega)) fun y _ => rfl
        | (split
           · exact eq_bind (hp _ (by omega)) fun y _ => rfl
           · rfl)
        | (split
           · rfl
           · exact eq_bind (hp _ (by omega)) fun y _ => rfl)
        | (rename_i t r _ _ _ _ _ _
           have := countOne_pos t
           exact eq_bind (hp _ (by omega)) fun y _ => rfl)

theorem all_enough {S : Syn} (hS : Takes S) (ts : List TT) {n : Nat} (hn : 2 * count ts + 2 ≤ n) :
    parseAll S n ts = parseAll S (2 * count ts + 2) ts := by
  induction hn with
  | refl => rfl
  | step h ih => rw [← (enough hS _).all ts h, ih]

/-! ## The parser that says why -/

theorem result_bind {α β : Type} (x : Outcome α) (f : α → Outcome β) : (x >>= f).result = x.result.bind (fun a => (f a).result) := by
  cases x <;> rfl

theorem result_opt {α : Type} (x : Option α) : (opt x).result = x := by cases x <;> rfl

theorem same_bind {α β : Type} {x : Outcome α} {y : Option α} {f : α → Outcome β} {g : α → Option β} (h : x.result = y)
    (k : ∀ a, (f a).result = g a) : (x >>= f).result = y >>= g := by
  rw [result_bind, h]
  exact congrArg (y.bind ·) (funext k)

/-- The results are those of the parser. -/
structure Same (S : Syn) (n : Nat) : Prop where
  inner : ∀ u ts, (readInner S n u ts).result = parseInner S n u ts
  all : ∀ ts, (readAll S n ts).result = parseAll S n ts
  one : ∀ ts, (readOne S n ts).result = parseOne S n ts
  function : ∀ a b name r, (readFunction S n a b name r).result = parseFunction S n a b name r
  expression : ∀ cur ts, (readExpression S n cur ts).result = parseExpression S n cur ts
  condition : ∀ cur ts, (readCondition S n cur ts).result = parseCondition S n cur ts
  loop : ∀ cur ts, (readLoop S n cur ts).result = parseLoop S n cur ts
  body : ∀ ts, (readBody S n ts).result = parseBody S n ts
  arms : ∀ ts, (readArms S n ts).result = parseArms S n ts
  parts : ∀ ts, (readParts S n ts).result = parseParts S n ts

theorem same (S : Syn) (n : Nat) : Same S n := by
  induction n with
  | zero => constructor <;> intros <;> rfl
  | succ n ih =>
    have hi := ih.inner
    have ha := ih.all
    have ho := ih.one
    have hf := ih.function
    have he := ih.expression
    have hc := ih.condition
    have hl := ih.loop
    have hb := ih.body
    have hr := ih.arms
    have hp := ih.parts
    constructor
    · intro u ts
      rw [readInner.eq_def, parseInner.eq_def]
      dsimp only
      cases ts with
      | nil => rfl
      | cons t r =>
        dsimp only
        split
        · rfl
        · exact same_bind (ho _) fun x => same_bind (hi _ _) fun y => rfl
    · intro ts
      rw [readAll, parseAll]
      exact same_bind (hi _ _) fun y => rfl
    · intro ts
      rw [readOne.eq_def, parseOne.eq_def]
      dsimp only
      split
      all_goals first
        | rfl
        | exact hf ..
        | exact same_bind (he ..) fun y => rfl
        | exact same_bind (ha ..) fun y => rfl
        | (dsimp only; split <;> rfl)
        | (split <;> first | rfl | (exfalso; simp_all; done))
    · intro a b name r
      rw [readFunction.eq_def, parseFunction.eq_def]
      dsimp only
      split
      · split <;> rfl
      · split
        · exact same_bind (hp ..) fun y => rfl
        · rfl
      · rfl
    · intro cur ts
      rw [readExpression.eq_def, parseExpression.eq_def]
      dsimp only
      split
      · exact hc ..
      · split
        · exact hl ..
        · split
          · refine same_bind (result_opt _) fun x => ?_
            obtain ⟨e, r⟩ := x
            dsimp only
            split
            · exact same_bind (hr _) fun y => rfl
            · rfl
          · split
            · exact result_opt _
            · split
              · exact result_opt _
              · split
                · rfl
                · exact result_opt _
    · intro cur ts
      rw [readCondition.eq_def, parseCondition.eq_def]
      dsimp only
      refine same_bind (result_opt _) fun x => ?_
      obtain ⟨e, r⟩ := x
      dsimp only
      split
      · exact same_bind (ha _) fun y => rfl
      · split
        · exact same_bind (ha _) fun y => rfl
        · split
          · exact same_bind (ha _) fun y => same_bind (ha _) fun z => rfl
          · rfl
        · rfl
    · intro cur ts
      rw [readLoop.eq_def, parseLoop.eq_def]
      dsimp only
      refine same_bind (result_opt _) fun x => ?_
      obtain ⟨e, r⟩ := x
      dsimp only
      split
      · refine same_bind (result_opt _) fun x => ?_
        obtain ⟨e, r⟩ := x
        dsimp only
        split
        · split
          · exact same_bind (ha _) fun y => same_bind (hb _) fun z => rfl
          · rfl
        · exact same_bind (hb _) fun z => rfl
      · rfl
    · intro ts
      rw [readBody.eq_def, parseBody.eq_def]
      dsimp only
      split
      · exact ha _
      · split
        · exact ha _
        · rfl
    · intro ts
      rw [readArms.eq_def, parseArms.eq_def]
      cases ts with
      | nil => rfl
      | cons t ts =>
        refine same_bind (result_opt _) fun x => ?_
        obtain ⟨e, r⟩ := x
        refine same_bind (result_opt _) fun x => ?_
        obtain ⟨e, r⟩ := x
        refine same_bind (result_opt _) fun x => ?_
        dsimp only
        split
        · exact same_bind (ha _) fun y => same_bind (hr _) fun z => rfl
        · exact same_bind (ha _) fun y => same_bind (hr _) fun z => rfl
        · exact same_bind (hi _ _) fun y => same_bind (hr _) fun z => rfl
    · intro ts
      rw [readParts.eq_def, parseParts.eq_def]
      dsimp only
      split
      all_goals first
        | rfl
        | exact same_bind (hp _) fun y => rfl
        | exact same_bind (ha _) fun y => same_bind (hp _) fun z => rfl
        | (split
           · refine same_bind (hp _) fun y => ?_
             split
             · rfl
             · exact same_bind (result_opt _) fun z => rfl
           · rfl)
        | (split
           · rfl
           · exact same_bind (hp _) fun y => rfl)

theorem result_done {α : Type} {x : Outcome α} {a : α} (h : x = .done a) : x.result = some a := by rw [h]; rfl

theorem fin_bind {α β : Type} {x : Outcome α} {f : α → Outcome β} (h : x ≠ .unfinished)
    (k : ∀ a, x = .done a → f a ≠ .unfinished) : (x >>= f) ≠ .unfinished := by
  cases x with
  | done a => exact k a rfl
  | refused => intro h; cases h
  | unfinished => exact absurd rfl h

theorem fin_opt {α : Type} (x : Option α) : opt x ≠ .unfinished := by cases x <;> intro h <;> cases h

theorem fin_done {α : Type} (x : α) : Outcome.done x ≠ .unfinished := by intro h; cases h

theorem fin_refused {α : Type} : (Outcome.refused : Outcome α) ≠ .unfinished := by intro h; cases h

theorem opt_done {α : Type} {x : Option α} {a : α} (h : opt x = .done a) : x = some a := by
  cases x with
  | none => cases h
  | some b => cases h; rfl

/-- The parser gives a result or refuses. -/
structure Ends (S : Syn) (n : Nat) : Prop where
  inner : ∀ u ts, 2 * count ts + 1 ≤ n → readInner S n u ts ≠ .unfinished
  all : ∀ ts, 2 * count ts + 2 ≤ n → readAll S n ts ≠ .unfinished
  one : ∀ ts, ts ≠ [] → 2 * count ts ≤ n → readOne S n ts ≠ .unfinished
  function : ∀ a b name r, 2 * count r + 1 ≤ n → readFunction S n a b name r ≠ .unfinished
  expression : ∀ cur ts, 2 * count ts + 1 ≤ n → readExpression S n cur ts ≠ .unfinished
  condition : ∀ cur ts, 2 * count ts + 1 ≤ n → readCondition S n cur ts ≠ .unfinished
  loop : ∀ cur ts, 2 * count ts + 1 ≤ n → readLoop S n cur ts ≠ .unfinished
  body : ∀ ts, 2 * count ts + 1 ≤ n → readBody S n ts ≠ .unfinished
  arms : ∀ ts, 2 * count ts + 1 ≤ n → readArms S n ts ≠ .unfinished
  parts : ∀ ts, 2 * count ts + 1 ≤ n → readParts S n ts ≠ .unfinished

theorem ends {S : Syn} (hS : Takes S) (n : Nat) : Ends S n := by
  induction n with
  | zero =>
    refine ⟨fun _ _ h => ?_, fun _ h => ?_, fun ts h0 h => ?_, fun _ _ _ _ h => ?_, fun _ _ h => ?_, fun _ _ h => ?_,
      fun _ _ h => ?_, fun _ h => ?_, fun _ h => ?_, fun _ h => ?_⟩ <;> try omega
    cases ts with
    | nil => exact absurd rfl h0
    | cons t ts =>
      have := countOne_pos t
      simp only [count] at h
      omega
  | succ n ih =>
    have hi := ih.inner
    have ha := ih.all
    have ho := ih.one
    have hf := ih.function
    have he := ih.expression
    have hc := ih.condition
    have hl := ih.loop
    have hb := ih.body
    have hr := ih.arms
    have hp := ih.parts
    constructor
    · intro u ts hn
      rw [readInner.eq_def]
      dsimp only
      split
      · exact fin_done _
      · split
        · exact fin_done _
        · refine fin_bind (ho _ (List.cons_ne_nil _ _) (by omega)) fun x hx => ?_
          obtain ⟨node, r1⟩ := x
          have := one_rest ((same S n).one _ ▸ result_done hx)
          exact fin_bind (hi _ _ (by simp only; omega)) fun y _ => fin_done _
    · intro ts hn
      rw [readAll]
      exact fin_bind (hi _ _ (by omega)) fun y _ => fin_done _
    · intro ts h0 hn
      rw [readOne.eq_def]
      dsimp only
      split
      all_goals try simp only [count, countOne] at hn
      all_goals first
        | exact fin_refused
        | exact fin_done _
        | exact hf _ _ _ _ (by omega)
        | exact fin_bind (he _ _ (by omega)) fun y _ => fin_done _
        | exact fin_bind (ha _ (by omega)) fun y _ => fin_done _
        | (split <;> exact fin_done _)
    · intro a b name r hn
      rw [readFunction.eq_def]
      dsimp only
      split
      · split
        · exact fin_refused
        · exact fin_done _
        · exact fin_refused
      · simp only [count, countOne] at hn
        split
        · exact fin_bind (hp _ (by omega)) fun y _ => fin_done _
        · exact fin_refused
      · exact fin_refused
    · intro cur ts hn
      rw [readExpression.eq_def]
      dsimp only
      split
      · rename_i h
        have := count_starts h
        exact hc _ _ (by omega)
      · split
        · rename_i h
          have := count_starts h
          exact hl _ _ (by omega)
        · split
          · rename_i h
            have := count_starts h
            refine fin_bind (fin_opt _) fun y hy => ?_
            obtain ⟨e, r⟩ := y
            have h2 := hS.expr _ _ _ (opt_done hy)
            dsimp only
            split
            · simp only [count, countOne] at h2
              exact fin_bind (hr _ (by omega)) fun y _ => fin_done _
            · exact fin_refused
          · split
            · exact fin_opt _
            · split
              · exact fin_opt _
              · split
                · exact fin_done _
                · exact fin_opt _
    · intro cur ts hn
      rw [readCondition.eq_def]
      dsimp only
      refine fin_bind (fin_opt _) fun y hy => ?_
      obtain ⟨e, r⟩ := y
      have h2 := hS.expr _ _ _ (opt_done hy)
      dsimp only
      split
      · rename_i h
        have := count_arrow h
        exact fin_bind (ha _ (by omega)) fun y _ => fin_done _
      · split
        · simp only [count, countOne] at h2
          exact fin_bind (ha _ (by omega)) fun y _ => fin_done _
        · simp only [count, countOne] at h2
          split
          · exact fin_bind (ha _ (by omega)) fun y _ => fin_bind (ha _ (by omega)) fun y _ => fin_done _
          · exact fin_refused
        · exact fin_refused
    · intro cur ts hn
      rw [readLoop.eq_def]
      dsimp only
      refine fin_bind (fin_opt _) fun y hy => ?_
      obtain ⟨e, r⟩ := y
      have h2 := hS.pat _ _ _ (opt_done hy)
      dsimp only
      split
      · rename_i h
        have h3 := count_starts h
        refine fin_bind (fin_opt _) fun y hy => ?_
        obtain ⟨e, r⟩ := y
        have h4 := hS.expr _ _ _ (opt_done hy)
        dsimp only
        split
        · rename_i h
          have h5 := count_starts h
          split
          · rename_i heq
            rw [heq] at h5
            simp only [count, countOne] at h5
            exact fin_bind (ha _ (by omega)) fun y _ => fin_bind (hb _ (by omega)) fun y _ => fin_done _
          · exact fin_refused
        · exact fin_bind (hb _ (by omega)) fun y _ => fin_done _
      · exact fin_refused
    · intro ts hn
      rw [readBody.eq_def]
      dsimp only
      split
      · rename_i h
        have := count_arrow h
        exact ha _ (by omega)
      · split
        · simp only [count, countOne] at hn
          exact ha _ (by omega)
        · exact fin_refused
    · intro ts hn
      rw [readArms.eq_def]
      cases ts with
      | nil => exact fin_done _
      | cons t ts =>
        dsimp only
        refine fin_bind (fin_opt _) fun y hy => ?_
        obtain ⟨e, r⟩ := y
        have h2 := hS.patMulti _ _ _ (opt_done hy)
        refine fin_bind (fin_opt _) fun y hy => ?_
        obtain ⟨g, r⟩ := y
        have h3 := count_guard hS (opt_done hy)
        refine fin_bind (fin_opt _) fun y hy => ?_
        have h4 := count_arrow (opt_done hy)
        dsimp only at h3 h4
        split
        · rename_i r'
          simp only [count, countOne] at h4
          have := count_comma r'
          exact fin_bind (ha _ (by omega)) fun y _ => fin_bind (hr _ (by omega)) fun y _ => fin_done _
        · rename_i r'
          simp only [count, countOne] at h4
          have := count_comma r'
          exact fin_bind (ha _ (by omega)) fun y _ => fin_bind (hr _ (by omega)) fun y _ => fin_done _
        · refine fin_bind (hi _ _ (by omega)) fun y hy => ?_
          obtain ⟨ns, r5⟩ := y
          have h5 := inner_rest _ ((same S n).inner _ _ ▸ result_done hy)
          have := count_comma r5
          exact fin_bind (hr _ (by dsimp only; omega)) fun y _ => fin_done _
    · intro ts hn
      rw [readParts.eq_def]
      dsimp only
      split
      all_goals simp only [count, countOne] at hn
      all_goals first
        | exact fin_refused
        | exact fin_done _
        | exact fin_bind (hp _ (by omega)) fun y _ => fin_done _
        | exact fin_bind (ha _ (by omega)) fun y _ => fin_bind (hp _ (by omega)) fun y _ => fin_done _
        | (split
           · refine fin_bind (hp _ (by omega)) fun y _ => ?_
             split
             · exact fin_done _
             · exact fin_bind (fin_opt _) fun y _ => fin_done _
           · exact fin_refused)
        | (split
           · exact fin_refused
           · exact fin_bind (hp _ (by omega)) fun y _ => fin_done _)
        | (rename_i t r _ _ _ _ _ _
           have := countOne_pos t
           exact fin_bind (hp _ (by omega)) fun y _ => fin_done _)

/-! ## Text -/

theorem upTo_rest (stop : List TT → Bool) : ∀ (ts : List TT) {e r : List TT}, upTo stop ts = some (e, r) → count r ≤ count ts
  | [], _, _, h => by cases h
  | [t], _, _, h => by
    rw [upTo] at h
    cases h
    simp [count]
  | t :: u :: ts, e, r, h => by
    rw [upTo] at h
    split at h
    · cases h
      simp [count]
    · obtain ⟨p, hp, he⟩ := Option.map_eq_some_iff.1 h
      cases he
      have := upTo_rest stop (u :: ts) (show upTo stop (u :: ts) = some (p.1, p.2) from hp)
      simp only [count] at this ⊢
      omega

theorem takes_syn : Takes syn :=
  ⟨fun _ _ _ h => upTo_rest _ _ h, fun _ _ _ h => upTo_rest _ _ h, fun _ _ _ h => upTo_rest _ _ h,
    fun _ _ _ h => upTo_rest _ _ h⟩

/-- A token that has been begun. -/
def begun : Pending → Nat
  | .word _ _ => 1
  | _ => 0

theorem fresh_size {C : Compiler} {p : Place} {c : Char} {rest : Str} {o} (h : lexFresh C p c rest = some o) :
    o.1.length + begun o.2 ≤ 1 := by
  unfold lexFresh at h
  repeat' split at h
  all_goals cases h
  all_goals simp [begun]

theorem step_size {C : Compiler} {p : Place} {c : Char} {rest : Str} {pend : Pending} {o}
    (h : lexStep C p c rest pend = some o) : o.1.length + begun o.2 ≤ 1 + begun pend := by
  unfold lexStep at h
  split at h
  · have := fresh_size h
    omega
  · split at h
    · cases h; simp [begun]
    · split at h
      · cases h
      · obtain ⟨w, -, h⟩ := Option.bind_eq_some_iff.1 h
        obtain ⟨o', ho, h⟩ := Option.bind_eq_some_iff.1 h
        have := fresh_size ho
        cases h
        simp only [List.length_cons, begun] at *
        omega
  · obtain ⟨v, -, he⟩ := Option.map_eq_some_iff.1 h
    cases he
    simp [begun]
  all_goals
    repeat' split at h
    all_goals cases h
    all_goals simp [begun]

theorem lexFrom_size {C : Compiler} : ∀ (s : Str) {p : Place} {pend : Pending} {rs : List Raw},
    lexFrom C p pend s = some rs → rs.length ≤ s.length + begun pend
  | [], p, pend, rs, h => by
    rw [lexFrom.eq_def] at h
    dsimp only at h
    split at h
    · cases h; simp
    · obtain ⟨v, -, he⟩ := Option.map_eq_some_iff.1 h
      cases he
      simp [begun]
    · cases h
    · cases h; simp
  | c :: s, p, pend, rs, h => by
    rw [lexFrom] at h
    obtain ⟨o, ho, h⟩ := Option.bind_eq_some_iff.1 h
    obtain ⟨q, hq, h⟩ := Option.bind_eq_some_iff.1 h
    cases h
    have h1 := step_size ho
    have h2 := lexFrom_size s hq
    simp only [List.length_append, List.length_cons]
    omega

theorem count_append (a b : List TT) : count (a ++ b) = count a + count b := by
  induction a with
  | nil => simp [count]
  | cons t a ih => simp only [List.cons_append, count, ih]; omega

theorem count_reverse (a : List TT) : count a.reverse = count a := by
  induction a with
  | nil => rfl
  | cons t a ih => simp only [List.reverse_cons, count_append, ih, count]; omega

/-- What has been read of groups that are open. -/
def open' : List (Place × Delimiter × List TT) → Nat
  | [] => 0
  | x :: r => 1 + count x.2.2 + open' r

/-- The lexer makes tokens of all kinds but groups. -/
def Flat : Raw → Prop
  | .leaf t => countOne t = 1
  | _ => True

theorem fresh_flat {C : Compiler} {p : Place} {c : Char} {rest : Str} {o} (h : lexFresh C p c rest = some o) :
    ∀ x ∈ o.1, Flat x := by
  unfold lexFresh at h
  repeat' split at h
  all_goals cases h
  all_goals simp [Flat, countOne]

theorem word_flat {C : Compiler} {p q : Place} {s : Str} {w} (h : wordToken C p q s = some w) : Flat w := by
  unfold wordToken at h
  repeat' split at h
  all_goals cases h
  all_goals simp [Flat, countOne]

theorem step_flat {C : Compiler} {p : Place} {c : Char} {rest : Str} {pend : Pending} {o}
    (h : lexStep C p c rest pend = some o) : ∀ x ∈ o.1, Flat x := by
  unfold lexStep at h
  split at h
  · exact fresh_flat h
  · split at h
    · cases h; simp
    · split at h
      · cases h
      · obtain ⟨w, hw, h⟩ := Option.bind_eq_some_iff.1 h
        obtain ⟨o', ho, h⟩ := Option.bind_eq_some_iff.1 h
        have := fresh_flat ho
        cases h
        simp only [List.mem_cons]
        rintro x (rfl | hx)
        · exact word_flat hw
        · exact this x hx
  · obtain ⟨v, -, he⟩ := Option.map_eq_some_iff.1 h
    cases he
    simp
  all_goals
    repeat' split at h
    all_goals cases h
    all_goals simp [Flat, countOne]

theorem lexFrom_flat {C : Compiler} : ∀ (s : Str) {p : Place} {pend : Pending} {rs : List Raw},
    lexFrom C p pend s = some rs → ∀ x ∈ rs, Flat x
  | [], p, pend, rs, h => by
    rw [lexFrom.eq_def] at h
    dsimp only at h
    split at h
    · cases h; simp
    · obtain ⟨v, hv, he⟩ := Option.map_eq_some_iff.1 h
      cases he
      simpa using word_flat hv
    · cases h
    · cases h; simp
  | c :: s, p, pend, rs, h => by
    rw [lexFrom] at h
    obtain ⟨o, ho, h⟩ := Option.bind_eq_some_iff.1 h
    obtain ⟨q, hq, h⟩ := Option.bind_eq_some_iff.1 h
    cases h
    intro x hx
    rcases List.mem_append.1 hx with hx | hx
    · exact step_flat ho x hx
    · exact lexFrom_flat s hq x hx

theorem trees_size {C : Compiler} : ∀ (rs : List Raw) {stack} {acc ts : List TT}, trees C stack acc rs = some ts →
    (∀ x ∈ rs, Flat x) → count ts = count acc + open' stack + rs.length
  | [], stack, acc, ts, h, _ => by
    rw [trees] at h
    split at h
    · rename_i hs
      cases h
      rw [List.isEmpty_iff.1 hs, count_reverse]
      simp [open']
    · cases h
  | .leaf t :: rs, stack, acc, ts, h, hf => by
    rw [trees] at h
    have h1 := trees_size rs h (fun x hx => hf x (List.mem_cons_of_mem _ hx))
    have h2 : countOne t = 1 := hf (.leaf t) (List.mem_cons_self ..)
    simp only [count, List.length_cons] at h1 ⊢
    omega
  | .opening p d :: rs, stack, acc, ts, h, hf => by
    rw [trees] at h
    have h1 := trees_size rs h (fun x hx => hf x (List.mem_cons_of_mem _ hx))
    simp only [count, open', List.length_cons] at h1 ⊢
    omega
  | .closing q d :: rs, stack, acc, ts, h, hf => by
    rw [trees.eq_def] at h
    dsimp only at h
    split at h
    · split at h
      · have h1 := trees_size rs h (fun x hx => hf x (List.mem_cons_of_mem _ hx))
        simp only [count, countOne, open', List.length_cons, count_reverse] at h1 ⊢
        omega
      · cases h
    · cases h

/-- There are not more tokens than characters. -/
theorem lex_size {C : Compiler} {p : Place} {s : Str} {ts : List TT} (h : lex C p s = some ts) : count ts ≤ s.length := by
  obtain ⟨rs, h1, h2⟩ := Option.bind_eq_some_iff.1 h
  have h3 := trees_size rs h2 (lexFrom_flat s h1)
  have h4 := lexFrom_size s h1
  simp only [count, open', begun] at h3 h4
  omega

theorem rounds_enough {i : Invocation} {C : Compiler} {ts : List TT} (h : lex C i.place (textOf i.lines) = some ts) :
    2 * count ts + 2 ≤ i.rounds := by
  have := lex_size h
  unfold Invocation.rounds
  omega

/-! ## Answers are final -/

/-- An answer stays. -/
def Below {α : Type} (a b : Outcome α) : Prop := a ≠ .unfinished → b = a

theorem below_refl {α : Type} (a : Outcome α) : Below a a := fun _ => rfl

theorem below_unfinished {α : Type} (a : Outcome α) : Below .unfinished a := fun h => absurd rfl h

theorem below_bind {α β : Type} {a b : Outcome α} {f g : α → Outcome β} (h : Below a b) (k : ∀ x, Below (f x) (g x)) :
    Below (a >>= f) (b >>= g) := by
  intro hy
  cases a with
  | unfinished => exact absurd rfl hy
  | refused => rw [h (by simp)]; rfl
  | done x => rw [h (by simp)]; exact k x hy

/-- More rounds change no answer. -/
structure Final (S : Syn) (n : Nat) : Prop where
  inner : ∀ u ts, Below (readInner S n u ts) (readInner S (n + 1) u ts)
  all : ∀ ts, Below (readAll S n ts) (readAll S (n + 1) ts)
  one : ∀ ts, Below (readOne S n ts) (readOne S (n + 1) ts)
  function : ∀ a b name r, Below (readFunction S n a b name r) (readFunction S (n + 1) a b name r)
  expression : ∀ cur ts, Below (readExpression S n cur ts) (readExpression S (n + 1) cur ts)
  condition : ∀ cur ts, Below (readCondition S n cur ts) (readCondition S (n + 1) cur ts)
  loop : ∀ cur ts, Below (readLoop S n cur ts) (readLoop S (n + 1) cur ts)
  body : ∀ ts, Below (readBody S n ts) (readBody S (n + 1) ts)
  arms : ∀ ts, Below (readArms S n ts) (readArms S (n + 1) ts)
  parts : ∀ ts, Below (readParts S n ts) (readParts S (n + 1) ts)

theorem final (S : Syn) (n : Nat) : Final S n := by
  induction n with
  | zero =>
    constructor <;> intros <;>
      simp only [readInner, readAll, readOne, readFunction, readExpression, readCondition, readLoop,
        readBody, readArms, readParts] <;> exact below_unfinished _
  | succ n ih =>
    have hi := ih.inner
    have ha := ih.all
    have ho := ih.one
    have hf := ih.function
    have he := ih.expression
    have hc := ih.condition
    have hl := ih.loop
    have hb := ih.body
    have hr := ih.arms
    have hp := ih.parts
    constructor
    · intro u ts
      rw [readInner.eq_def S (n + 1), readInner.eq_def S (n + 1 + 1)]
      dsimp only
      split
      · exact below_refl _
      · split
        · exact below_refl _
        · exact below_bind (ho _) fun x => below_bind (hi _ _) fun y => below_refl _
    · intro ts
      rw [readAll, readAll.eq_def S (n + 1 + 1)]
      exact below_bind (hi _ _) fun y => below_refl _
    · intro ts
      rw [readOne.eq_def S (n + 1), readOne.eq_def S (n + 1 + 1)]
      dsimp only
      split
      all_goals first
        | exact below_refl _
        | exact hf _ _ _ _
        | exact below_bind (he _ _) fun y => below_refl _
        | exact below_bind (ha _) fun y => below_refl _
    · intro a b name r
      rw [readFunction.eq_def S (n + 1), readFunction.eq_def S (n + 1 + 1)]
      dsimp only
      split
      · exact below_refl _
      · split
        · exact below_bind (hp _) fun y => below_refl _
        · exact below_refl _
      · exact below_refl _
    · intro cur ts
      rw [readExpression.eq_def S (n + 1), readExpression.eq_def S (n + 1 + 1)]
      dsimp only
      split
      · exact hc _ _
      · split
        · exact hl _ _
        · split
          · refine below_bind (below_refl _) fun y => ?_
            split
            · exact below_bind (hr _) fun y => below_refl _
            · exact below_refl _
          · exact below_refl _
    · intro cur ts
      rw [readCondition.eq_def S (n + 1), readCondition.eq_def S (n + 1 + 1)]
      dsimp only
      refine below_bind (below_refl _) fun y => ?_
      split
      · exact below_bind (ha _) fun y => below_refl _
      · split
        · exact below_bind (ha _) fun y => below_refl _
        · split
          · exact below_bind (ha _) fun y => below_bind (ha _) fun y => below_refl _
          · exact below_refl _
        · exact below_refl _
    · intro cur ts
      rw [readLoop.eq_def S (n + 1), readLoop.eq_def S (n + 1 + 1)]
      dsimp only
      refine below_bind (below_refl _) fun y => ?_
      split
      · refine below_bind (below_refl _) fun y => ?_
        split
        · split
          · exact below_bind (ha _) fun y => below_bind (hb _) fun y => below_refl _
          · exact below_refl _
        · exact below_bind (hb _) fun y => below_refl _
      · exact below_refl _
    · intro ts
      rw [readBody.eq_def S (n + 1), readBody.eq_def S (n + 1 + 1)]
      dsimp only
      split
      · exact ha _
      · split
        · exact ha _
        · exact below_refl _
    · intro ts
      rw [readArms.eq_def S (n + 1), readArms.eq_def S (n + 1 + 1)]
      cases ts with
      | nil => exact below_refl _
      | cons t ts =>
        dsimp only
        refine below_bind (below_refl _) fun y => ?_
        refine below_bind (below_refl _) fun y => ?_
        refine below_bind (below_refl _) fun y => ?_
        split
        · exact below_bind (ha _) fun y => below_bind (hr _) fun y => below_refl _
        · exact below_bind (ha _) fun y => below_bind (hr _) fun y => below_refl _
        · exact below_bind (hi _ _) fun y => below_bind (hr _) fun y => below_refl _
    · intro ts
      rw [readParts.eq_def S (n + 1), readParts.eq_def S (n + 1 + 1)]
      dsimp only
      split
      all_goals first
        | exact below_refl _
        | exact below_bind (hp _) fun y => below_refl _
        | exact below_bind (ha _) fun y => below_bind (hp _) fun y => below_refl _
        | (split
           · exact below_bind (hp _) fun y => below_refl _
           · exact below_refl _)
        | (split
           · exact below_refl _
           · exact below_bind (hp _) fun y => below_refl _)

theorem readAll_final (S : Syn) (ts : List TT) {n m : Nat} (hn : n ≤ m) (h : readAll S n ts ≠ .unfinished) :
    readAll S m ts = readAll S n ts := by
  induction hn with
  | refl => rfl
  | step _ ih => rw [(final S _).all ts (by rw [ih]; exact h), ih]

end Genco.Proofs.Rounds
