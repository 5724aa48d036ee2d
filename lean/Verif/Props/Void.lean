import Verif.Proofs.Void
import Verif.Props.Template

/-!
# Templates with holes that write nothing
-/

set_option autoImplicit false

namespace Genco.Props

open Spec Spec.MacroFile Spec.Template Macro Tokens

variable {ι E Env : Type}

/-- C77. Holes that write nothing: a condition that does not hold, a loop with nothing to do, a
value without text. They can be taken out of the template: a hole behind something on its line goes,
and the spaces before and behind it are one; a line with nothing but such holes goes, with its line
break. It has to be at the column of the line above or of the next line left, or there is none; and
no line left starts with such a hole. Blank lines above a line that goes count for the next line
left, unless the column changes. `top` are lines at the top that go. -/
theorem C77_void (H : Host ι E Env) (hv : ∀ ρ e, ∀ c ∈ H.value ρ e, ¬ EmptyCall c)
    (hs : ∀ ρ e, ∀ c ∈ H.scope ρ e, ¬ EmptyCall c) (ρ : Env) (L : Lang ι) (esc : Char → Str)
    (hQ : ∀ s, L.writeQuoted s = s.map esc) (cfg : Config)
    (void : (Cur → Node E) → Bool) (C : (Cur → Node E) → List (Call ι)) (V : (Cur → Node E) → List Str)
    (top : List (Row E)) (l : Row E) (ls : List (Row E))
    (h : ∀ x ∈ top ++ l :: ls, ∀ s ∈ x.slots, SlotOr H ρ L cfg void C V s)
    (ho : Template.Offside [] (top ++ l :: ls)) (htop : Top void l.column top) (hl : l.first.void void = false)
    (ht : Tidy void l.column ls) (line : Nat) (ns : List (Node E)) (hn : flatten ns = placeRows line (top ++ l :: ls)) :
    ∃ r ss, Macro.quote none ns = .ok (r, ss) ∧ toVec L cfg (history (runBlock H ρ ss)).items =
      some (Template.outLines cfg V [] (leftRows void none 0 (top ++ l :: ls))) := by
  obtain ⟨r, ss, h1, -, h2, -⟩ := void_vec H hv hs ρ L (homQuote_of_map L esc hQ) cfg void C V top l ls h ho htop hl ht line ns hn
  exact ⟨r, ss, h1, h2⟩

/-- C77. If the last thing in it writes something, on the level of the first line, such a template
makes a block of code, so it can fill holes of other templates. -/
theorem C77_nested (H : Host ι E Env) (hv : ∀ ρ e, ∀ c ∈ H.value ρ e, ¬ EmptyCall c)
    (hs : ∀ ρ e, ∀ c ∈ H.scope ρ e, ¬ EmptyCall c) (ρ : Env) (L : Lang ι) (esc : Char → Str)
    (hQ : ∀ s, L.writeQuoted s = s.map esc) (cfg : Config)
    (void : (Cur → Node E) → Bool) (C : (Cur → Node E) → List (Call ι)) (V : (Cur → Node E) → List Str)
    (l : Row E) (ls : List (Row E)) (h : ∀ x ∈ l :: ls, ∀ s ∈ x.slots, SlotOr H ρ L cfg void C V s)
    (ho : Template.Offside [] (l :: ls)) (hl : l.first.void void = false) (ht : Tidy void l.column ls) (line : Nat)
    (ns : List (Node E)) (hn : flatten ns = placeRows line (l :: ls)) (hi : Inked void (l :: ls))
    (hd : lastLevel [] (l :: ls) = 0) :
    ∃ r ss, Macro.quote none ns = .ok (r, ss) ∧
      BlockOf L cfg (runBlock H ρ ss) (Template.outLines cfg V [] (leftRows void none 0 (l :: ls))) := by
  obtain ⟨r, ss, h1, -, h2, h3, h4⟩ := void_vec H hv hs ρ L (homQuote_of_map L esc hQ) cfg void C V [] l ls h ho
    (fun x hx => by cases hx) hl ht line ns hn
  exact ⟨r, ss, h1, h4 rfl hi hd, h3, h2⟩

/-- C77. A value that makes no calls writes nothing. -/
theorem C77_value (H : Host ι E Env) (ρ : Env) (e : E) (h : H.value ρ e = []) :
    Fills H ρ (fun cur => .eval cur e) [] := h ▸ fills_eval H ρ e

/-- C77. A condition that does not hold writes nothing. -/
theorem C77_if (H : Host ι E Env) (ρ : Env) (c : E) (t : List (Node E)) (ht : emptyText t = false) (r : Bool)
    (ss : List (Stmt ι E)) (hq : Macro.quote none t = .ok (r, ss)) (hc : H.test ρ c = none) :
    Fills H ρ (fun cur => .ifThen cur c t) [] := by
  have := fills_ifThen H ρ c t ht r ss hq
  rwa [hc] at this

/-- C77. A loop over nothing writes nothing, joined or not. -/
theorem C77_loop (H : Host ι E Env) (ρ : Env) (pat iter : E) (paren : Cur) (sep body : List (Node E))
    (hb : emptyText body = false) (hp : emptyText sep = false) (r r' : Bool) (ss ss' : List (Stmt ι E))
    (hq : Macro.quote none body = .ok (r, ss)) (hq' : Macro.quote (some paren) sep = .ok (r', ss'))
    (hi : H.iter ρ pat iter = []) :
    Fills H ρ (fun cur => .loop cur pat iter body) [] ∧ Fills H ρ (fun cur => .joined cur pat iter paren sep body) [] := by
  have h1 := fills_loop H ρ pat iter body hb r ss hq
  have h2 := fills_joined H ρ pat iter paren sep body hb hp r r' ss ss' hq hq'
  rw [hi] at h1 h2
  exact ⟨h1, h2⟩

/-- C77. A match without an arm that is taken writes nothing. -/
theorem C77_match (H : Host ι E Env) (ρ : Env) (x : E) (as : List (Arm E)) (ht : emptyTextArms as = false)
    (ha : ∀ p g q b, Arm.mk p g q b ∈ as → ∃ y, Macro.quote (ι := ι) q b = .ok y)
    (hp : ∀ p g q b, Arm.mk p g q b ∈ as → H.pick ρ x p g = none) :
    Fills H ρ (fun cur => .select cur x as) [] := by
  obtain ⟨r, out, ho⟩ := arms_all _ ha
  have := fills_match H ρ x as ht r out ho
  rwa [arms_none H ρ x as r out ho hp] at this

/-! ## Sample -/

namespace VoidSample

open TemplateSample (cfg lang hole linesOf)

/-- `n` has no text. -/
def host : Host Str Str Unit where
  value _ e := if e = ['n'] then [] else TemplateSample.host.value () e
  scope _ _ := []
  iter _ _ _ := []
  test _ _ := none
  pick _ _ _ _ := none
  bind _ _ _ := ()

def void (n : Cur → Node Str) : Bool := TemplateSample.exprOf n = ['n']

def calls (n : Cur → Node Str) : List (Call Str) := host.value () (TemplateSample.exprOf n)

/-- The lines
```
$n

a $n b $n
$n

$n
  $n
  $v
  $n
$n

c
    $n
```
-/
def top : List (Row Str) := [⟨0, 4, hole ['n'], []⟩]

def first : Row Str := ⟨1, 4, .word ['a'], [(1, hole ['n']), (1, .word ['b']), (1, hole ['n'])]⟩

def rows : List (Row Str) := [
  ⟨0, 4, hole ['n'], []⟩,
  ⟨1, 4, hole ['n'], []⟩,
  ⟨0, 6, hole ['n'], []⟩,
  ⟨0, 6, hole ['v'], []⟩,
  ⟨0, 6, hole ['n'], []⟩,
  ⟨0, 4, hole ['n'], []⟩,
  ⟨1, 4, .word ['c'], []⟩,
  ⟨0, 8, hole ['n'], []⟩]

theorem full : ∀ ρ e, ∀ c ∈ host.value ρ e, ¬ EmptyCall c := by
  intro ρ e c hc
  by_cases h : e = ['n']
  · simp [host, h] at hc
  · exact TemplateSample.full () e c (by simpa [host, h] using hc)

theorem slots_or : ∀ x ∈ top ++ first :: rows, ∀ s ∈ x.slots, SlotOr host () lang cfg void calls linesOf s := by
  have hn : SlotOr host () lang cfg void calls linesOf (hole ['n']) := C77_value host () ['n'] rfl
  have hv : SlotOr host () lang cfg void calls linesOf (hole ['v']) :=
    C76_value host () lang cfg ['v'] _ TemplateSample.block_v
  intro x hx s hs
  simp only [top, first, rows, List.cons_append, List.nil_append, List.mem_cons, List.not_mem_nil, or_false] at hx
  rcases hx with rfl | rfl | rfl | rfl | rfl | rfl | rfl | rfl | rfl | rfl <;>
    simp only [Row.slots, List.map_cons, List.map_nil, List.mem_cons, List.not_mem_nil, or_false] at hs
  all_goals first
    | (rcases hs with rfl | rfl | rfl | rfl <;> first | exact hn | exact List.cons_ne_nil _ _)
    | (subst hs; first | exact hn | exact hv | exact List.cons_ne_nil _ _)

/-- Only text and the value that is not empty are left. -/
example : ∃ r ss, Macro.quote none (placeRows 1 (top ++ first :: rows)) = .ok (r, ss) ∧
    toVec lang cfg (history (runBlock host () ss)).items = some [c!"a b", c!"  Point {", c!"    x: 1,", c!"    \"y\"",
      c!"  }", c!"", c!"c"] := by
  obtain ⟨r, ss, h1, h2⟩ := C77_void host full (fun _ _ _ h => by cases h) () lang _ (fun _ => rfl) cfg void calls linesOf
    top first rows slots_or (by simp only [top, first, rows, List.cons_append, List.nil_append, Template.Offside]; decide)
    (fun x hx => by cases List.mem_singleton.1 hx; exact ⟨rfl, rfl, rfl⟩) rfl
    (by simp only [first, rows, Tidy]; decide) 1 (placeRows 1 (top ++ first :: rows)) rfl
  exact ⟨r, ss, h1, h2.trans (by decide +kernel)⟩

/-- Without the line at the top and with text at the end there is a block. -/
example : ∃ r ss, Macro.quote none (placeRows 1 [first, ⟨0, 4, hole ['n'], []⟩, ⟨1, 4, .word ['c'], []⟩]) = .ok (r, ss) ∧
    BlockOf lang cfg (runBlock host () ss) [c!"a b", c!"", c!"c"] := by
  obtain ⟨r, ss, h1, h2⟩ := C77_nested host full (fun _ _ _ h => by cases h) () lang _ (fun _ => rfl) cfg void calls linesOf
    first [⟨0, 4, hole ['n'], []⟩, ⟨1, 4, .word ['c'], []⟩] (fun x hx => slots_or x (by
      simp only [List.mem_cons, List.not_mem_nil, or_false] at hx
      rcases hx with rfl | rfl | rfl <;> simp [top, rows]))
    (by simp only [first, Template.Offside]; decide) rfl (by simp only [first, Tidy]; decide) 1
    (placeRows 1 [first, ⟨0, 4, hole ['n'], []⟩, ⟨1, 4, .word ['c'], []⟩]) rfl
    (fun l hl s hs => by cases hl; cases hs; rfl) (by decide)
  exact ⟨r, ss, h1, by
    have : Template.outLines cfg linesOf [] (leftRows void none 0 [first, ⟨0, 4, hole ['n'], []⟩, ⟨1, 4, .word ['c'], []⟩]) =
      [c!"a b", c!"", c!"c"] := by decide +kernel
    rwa [this] at h2⟩

/-- `$(if c => a)` -/
example : Fills host () (fun cur => .ifThen cur ['c'] [.tree ⟨⟨1, 10⟩, ⟨1, 11⟩⟩ ['a']]) [] :=
  C77_if host () _ _ rfl _ _ rfl rfl

/-- `$(for p in i => a)` and `$(for p in i join (,) => a)` -/
example : Fills host () (fun cur => .loop cur ['p'] ['i'] [.tree ⟨⟨1, 16⟩, ⟨1, 17⟩⟩ ['a']]) [] ∧
    Fills host () (fun cur => .joined cur ['p'] ['i'] ⟨⟨1, 18⟩, ⟨1, 21⟩⟩ [.tree ⟨⟨1, 19⟩, ⟨1, 20⟩⟩ [',']]
      [.tree ⟨⟨1, 16⟩, ⟨1, 17⟩⟩ ['a']]) [] :=
  C77_loop host () _ _ _ _ _ rfl rfl _ _ _ _ rfl rfl rfl

/-- `$(match x { p => a, q => })` -/
example : Fills host () (fun cur => .select cur ['x'] [.mk ['p'] none none [.tree ⟨⟨1, 17⟩, ⟨1, 18⟩⟩ ['a']],
    .mk ['q'] none none []]) [] :=
  C77_match host () _ _ rfl (fun p g q b hb => by
    simp only [List.mem_cons, Arm.mk.injEq, List.not_mem_nil, or_false] at hb
    rcases hb with ⟨-, -, rfl, rfl⟩ | ⟨-, -, rfl, rfl⟩ <;> exact ⟨_, rfl⟩) (fun _ _ _ _ _ => rfl)

/-- What is rendered for nodes that are accepted and need nothing. -/
def render (ns : List (Node Str)) : Option (List Str) :=
  match Macro.quote none ns with
  | .ok (false, ss) => toVec lang cfg (history (runBlock host () ss)).items
  | _ => none

theorem shown (ns : List (Node Str)) (vs : List Str) (h : render ns = some vs) :
    ∃ ss, Macro.quote none ns = .ok (false, ss) ∧ toVec lang cfg (history (runBlock host () ss)).items = some vs := by
  unfold render at h
  split at h
  · rename_i ss hq
    exact ⟨ss, hq, h⟩
  · cases h

end VoidSample

open VoidSample TemplateSample in
/-- C77. Where a line with nothing but such holes is at another column than its neighbours, lines
around it become one: if it is further in, and if it is further out than both. -/
theorem C77_column_negative :
    (∃ ss, Macro.quote none [.tree ⟨⟨1, 0⟩, ⟨1, 1⟩⟩ ['a'], .eval ⟨⟨2, 2⟩, ⟨2, 4⟩⟩ ['n'], .tree ⟨⟨3, 0⟩, ⟨3, 1⟩⟩ ['b']] =
        .ok (false, ss) ∧
      toVec lang cfg (history (runBlock VoidSample.host () ss)).items = some [c!"ab"]) ∧
    ∃ ss, Macro.quote none [.tree ⟨⟨1, 0⟩, ⟨1, 1⟩⟩ ['a'], .tree ⟨⟨2, 2⟩, ⟨2, 3⟩⟩ ['b'], .eval ⟨⟨3, 0⟩, ⟨3, 2⟩⟩ ['n'],
        .tree ⟨⟨4, 2⟩, ⟨4, 3⟩⟩ ['c']] = .ok (false, ss) ∧
      toVec lang cfg (history (runBlock VoidSample.host () ss)).items = some [c!"a", c!"  bc"] :=
  ⟨shown _ _ (by decide +kernel), shown _ _ (by decide +kernel)⟩

open VoidSample TemplateSample in
/-- C77. Where a line that is left starts with such a hole, the space behind the hole is left too. -/
theorem C77_start_negative :
    ∃ ss, Macro.quote none [.tree ⟨⟨1, 0⟩, ⟨1, 1⟩⟩ ['a'], .eval ⟨⟨2, 0⟩, ⟨2, 2⟩⟩ ['n'], .tree ⟨⟨2, 3⟩, ⟨2, 4⟩⟩ ['b']] =
        .ok (false, ss) ∧
      toVec lang cfg (history (runBlock VoidSample.host () ss)).items = some [c!"a", c!" b"] :=
  shown _ _ (by decide +kernel)

open VoidSample TemplateSample in
/-- C77. Where the column changes behind a line that goes, blank lines above it are lost. -/
theorem C77_blank_negative :
    ∃ ss, Macro.quote none [.tree ⟨⟨1, 0⟩, ⟨1, 1⟩⟩ ['a'], .eval ⟨⟨3, 0⟩, ⟨3, 2⟩⟩ ['n'], .tree ⟨⟨4, 2⟩, ⟨4, 3⟩⟩ ['b']] =
        .ok (false, ss) ∧
      toVec lang cfg (history (runBlock VoidSample.host () ss)).items = some [c!"a", c!"  b"] :=
  shown _ _ (by decide +kernel)

end Genco.Props
