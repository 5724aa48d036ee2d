import Verif.Proofs.TemplateLoop
import Verif.Props.Escape
import Verif.Model.Lex
import Mathlib.Data.List.Infix

/-!
# Templates
-/

set_option autoImplicit false

namespace Genco.Props

open Spec Spec.MacroFile Spec.Template Macro Tokens

variable {ι E Env : Type}

/-- C76. How constant text is cut into literals, and whether literals are borrowed or owned, does
not matter: calls with the same letters are rendered to the same lines. Only in Dart, where a
literal alone in an evaluation is special, there must be no evaluations. -/
theorem C76_cut (L : Lang ι) (esc : Char → Str) (hQ : ∀ s, L.writeQuoted s = s.map esc) (cfg : Config)
    (cs ds : List (Call ι)) (hE : Uniform L (cs.flatMap callItems))
    (h : letters (cs.flatMap callItems) = letters (ds.flatMap callItems)) :
    toVec L cfg (history cs).items = toVec L cfg (history ds).items :=
  cut_vec L (homQuote_of_map L esc hQ) cfg hE h

/-- C76. A template: lines of constant text and holes, at columns that keep to the off-side rule.
`ns` are the nodes for it, where brackets may be groups. If every hole writes a block of code, then
the macro is accepted, and every hole is replaced by the lines it is rendered to when it stands
alone: its first line goes on where the text before it ends, the text behind it goes on where its
last line ends, and all its lines are moved in to the level of the line of the template. -/
theorem C76_template (H : Host ι E Env) (hv : ∀ ρ e, ∀ c ∈ H.value ρ e, ¬ EmptyCall c)
    (hs : ∀ ρ e, ∀ c ∈ H.scope ρ e, ¬ EmptyCall c) (ρ : Env) (L : Lang ι) (esc : Char → Str)
    (hQ : ∀ s, L.writeQuoted s = s.map esc) (cfg : Config)
    (C : (Cur → Node E) → List (Call ι)) (V : (Cur → Node E) → List Str) (ls : List (Row E)) (hl : ls ≠ [])
    (h : ∀ x ∈ ls, ∀ s ∈ x.slots, SlotIn H ρ L cfg C V s) (ho : Template.Offside [] ls) (line : Nat)
    (ns : List (Node E)) (hn : flatten ns = placeRows line ls) :
    ∃ r ss, Macro.quote none ns = .ok (r, ss) ∧
      toVec L cfg (history (runBlock H ρ ss)).items = some (Template.outLines cfg V [] ls) := by
  obtain ⟨l, ls, rfl⟩ := List.exists_cons_of_ne_nil hl
  obtain ⟨r, ss, h1, -, h2, -⟩ := template_vec H hv hs ρ L (homQuote_of_map L esc hQ) cfg C V l ls h ho line ns hn
  exact ⟨r, ss, h1, h2⟩

/-- C76. If the last line is on the level of the first, a template makes a block of code, so what
it makes can fill holes of other templates. -/
theorem C76_nested (H : Host ι E Env) (hv : ∀ ρ e, ∀ c ∈ H.value ρ e, ¬ EmptyCall c)
    (hs : ∀ ρ e, ∀ c ∈ H.scope ρ e, ¬ EmptyCall c) (ρ : Env) (L : Lang ι) (esc : Char → Str)
    (hQ : ∀ s, L.writeQuoted s = s.map esc) (cfg : Config)
    (C : (Cur → Node E) → List (Call ι)) (V : (Cur → Node E) → List Str) (ls : List (Row E)) (hl : ls ≠ [])
    (h : ∀ x ∈ ls, ∀ s ∈ x.slots, SlotIn H ρ L cfg C V s) (ho : Template.Offside [] ls) (line : Nat)
    (ns : List (Node E)) (hn : flatten ns = placeRows line ls) (hd : lastLevel [] ls = 0) :
    ∃ r ss, Macro.quote none ns = .ok (r, ss) ∧ BlockOf L cfg (runBlock H ρ ss) (Template.outLines cfg V [] ls) := by
  obtain ⟨l, ls, rfl⟩ := List.exists_cons_of_ne_nil hl
  obtain ⟨r, ss, h1, -, h2, h3, h4⟩ := template_vec H hv hs ρ L (homQuote_of_map L esc hQ) cfg C V l ls h ho line ns hn
  exact ⟨r, ss, h1, h4 hd, h3, h2⟩

/-- C76. Text that is not empty, owned or borrowed, is a block. -/
theorem C76_text (L : Lang ι) (cfg : Config) (s : ItemStr) (hs : s.text ≠ []) :
    BlockOf L cfg [.append (.literal s)] [s.text] := by
  obtain ⟨h1, h2⟩ := block_text L cfg s hs
  exact ⟨h1, .inr (fun i hi => by cases List.mem_singleton.1 hi; rfl), h2⟩

/-- C76. The stream a block was collected in is a block. -/
theorem C76_stream (L : Lang ι) (cfg : Config) (cs : List (Call ι)) (vs : List Str) (h : BlockOf L cfg cs vs) :
    BlockOf L cfg [.stream (history cs).items] vs := by
  refine ⟨block_stream h.block, ?_, by rw [history_stream]; exact h.lines⟩
  have := cut_history h.uniform
  rw [show [Call.stream (history cs).items].flatMap callItems = (history cs).items ++ [] from rfl, List.append_nil]
  exact this

/-- C76. Blocks in a row, with a separator between them, are a block. -/
theorem C76_join (L : Lang ι) (esc : Char → Str) (hQ : ∀ s, L.writeQuoted s = s.map esc) (cfg : Config)
    (sp : Template.Sep) (hsp : sp.ok) (ps : List (List (Call ι) × List Str)) (hp : ps ≠ [])
    (h : ∀ q ∈ ps, BlockOf L cfg q.1 q.2) :
    BlockOf L cfg (joinCalls sp.calls (ps.map (·.1))) (sp.lines (ps.map (·.2))) := by
  obtain ⟨p, ps, rfl⟩ := List.exists_cons_of_ne_nil hp
  exact join_blocks L (homQuote_of_map L esc hQ) cfg sp hsp p ps h

/-- C76. An interpolated value fills a hole, if what it writes is a block. -/
theorem C76_value (H : Host ι E Env) (ρ : Env) (L : Lang ι) (cfg : Config) (e : E) (vs : List Str)
    (h : BlockOf L cfg (H.value ρ e) vs) : Hole H ρ L cfg (fun cur => .eval cur e) (H.value ρ e) vs :=
  ⟨h, fills_eval H ρ e⟩

/-- C76. So does a condition that holds, if what is in it makes a block with the variables the condition
binds. -/
theorem C76_if (H : Host ι E Env) (ρ : Env) (L : Lang ι) (cfg : Config) (c : E) (t : List (Node E)) (vs : List Str)
    (ht : emptyText t = false) (r : Bool) (ss : List (Stmt ι E)) (hq : Macro.quote none t = .ok (r, ss))
    (ρ' : Env) (hc : H.test ρ c = some ρ') (h : BlockOf L cfg (runBlock H ρ' ss) vs) :
    Hole H ρ L cfg (fun cur => .ifThen cur c t) (runBlock H ρ' ss) vs :=
  ⟨h, fills_if H ρ c t ht r ss hq ρ' hc⟩

/-- C76. So does a joined loop with something to do, if its body makes a block in every turn: there
are the lines of all turns, with the separator between them. -/
theorem C76_loop (H : Host ι E Env) (ρ : Env) (L : Lang ι) (esc : Char → Str)
    (hQ : ∀ s, L.writeQuoted s = s.map esc) (cfg : Config) (pat iter : E)
    (paren : Cur) (sep body : List (Node E)) (hb : emptyText body = false) (hp : emptyText sep = false)
    (r r' : Bool) (ss ss' : List (Stmt ι E)) (hq : Macro.quote none body = .ok (r, ss))
    (hq' : Macro.quote (some paren) sep = .ok (r', ss')) (sp : Template.Sep) (hsp : sp.ok)
    (hw : ∀ ρ', runBlock H ρ' ss' = sp.calls) (V : Env → List Str) (hne : H.iter ρ pat iter ≠ [])
    (h : ∀ ρ' ∈ H.iter ρ pat iter, BlockOf L cfg (runBlock H ρ' ss) (V ρ')) :
    ∃ cs, Hole H ρ L cfg (fun cur => .joined cur pat iter paren sep body) cs (sp.lines ((H.iter ρ pat iter).map V)) := by
  refine ⟨_, ?_, fills_joined H ρ pat iter paren sep body hb hp r r' ss ss' hq hq'⟩
  simp only [hw]
  rw [peek_blocks]
  have := C76_join L esc hQ cfg sp hsp ((H.iter ρ pat iter).map (fun ρ' => (runBlock H ρ' ss, V ρ')))
    (by simpa using hne) (fun q hq => by
      obtain ⟨ρ', hρ, rfl⟩ := List.mem_map.1 hq
      exact h ρ' hρ)
  simpa [List.map_map, Function.comp_def] using this

theorem joinCalls_nil (cs : List (List (Call ι))) : joinCalls [] cs = cs.flatten := by
  induction cs with
  | nil => rfl
  | cons c cs ih =>
    cases cs with
    | nil => simp [joinCalls]
    | cons d cs => rw [joinCalls, ih]; simp

/-- C76. So does a loop that is not joined: a turn goes on where the turn before ends. -/
theorem C76_each (H : Host ι E Env) (ρ : Env) (L : Lang ι) (esc : Char → Str)
    (hQ : ∀ s, L.writeQuoted s = s.map esc) (cfg : Config) (pat iter : E) (body : List (Node E))
    (hb : emptyText body = false) (r : Bool) (ss : List (Stmt ι E)) (hq : Macro.quote none body = .ok (r, ss))
    (V : Env → List Str) (hne : H.iter ρ pat iter ≠ [])
    (h : ∀ ρ' ∈ H.iter ρ pat iter, BlockOf L cfg (runBlock H ρ' ss) (V ρ')) :
    ∃ cs, Hole H ρ L cfg (fun cur => .loop cur pat iter body) cs
      ((Template.Sep.gap false).lines ((H.iter ρ pat iter).map V)) := by
  refine ⟨_, ?_, fills_loop H ρ pat iter body hb r ss hq⟩
  have := C76_join L esc hQ cfg (.gap false) trivial ((H.iter ρ pat iter).map (fun ρ' => (runBlock H ρ' ss, V ρ')))
    (by simpa using hne) (fun q hq => by
      obtain ⟨ρ', hρ, rfl⟩ := List.mem_map.1 hq
      exact h ρ' hρ)
  rw [show (Template.Sep.gap false).calls = ([] : List (Call ι)) from rfl, joinCalls_nil] at this
  simpa [List.map_map, Function.comp_def, List.flatMap_def] using this

/-- C76. So does a condition with an alternative, if the branch taken makes a block. -/
theorem C76_else (H : Host ι E Env) (ρ : Env) (L : Lang ι) (cfg : Config) (c : E) (t f : List (Node E)) (vs : List Str)
    (ht : emptyText t = false) (hf : emptyText f = false) (r r' : Bool) (ss ss' : List (Stmt ι E))
    (hq : Macro.quote none t = .ok (r, ss)) (hq' : Macro.quote none f = .ok (r', ss'))
    (h : BlockOf L cfg ((H.test ρ c).elim (runBlock H ρ ss') (fun ρ' => runBlock H ρ' ss)) vs) :
    Hole H ρ L cfg (fun cur => .ifElse cur c t f) ((H.test ρ c).elim (runBlock H ρ ss') (fun ρ' => runBlock H ρ' ss)) vs :=
  ⟨h, fills_else H ρ c t f ht hf r r' ss ss' hq hq'⟩

/-- C76. So does a match, if the first arm whose pattern and guard hold makes a block with the
variables its pattern binds. -/
theorem C76_match (H : Host ι E Env) (ρ : Env) (L : Lang ι) (cfg : Config) (x : E) (before after : List (Arm E))
    (p : E) (g : Option E) (paren : Option Cur) (b : List (Node E)) (vs : List Str)
    (ht : emptyTextArms (before ++ .mk p g paren b :: after) = false)
    (ha : ∀ p' g' q' b', Arm.mk p' g' q' b' ∈ before ++ .mk p g paren b :: after → ∃ y, Macro.quote (ι := ι) q' b' = .ok y)
    (hbefore : ∀ p' g' q' b', Arm.mk p' g' q' b' ∈ before → H.pick ρ x p' g' = none) (ρ' : Env)
    (hpick : H.pick ρ x p g = some ρ') (r : Bool) (ss : List (Stmt ι E)) (hq : Macro.quote paren b = .ok (r, ss))
    (h : BlockOf L cfg (runBlock H ρ' ss) vs) :
    Hole H ρ L cfg (fun cur => .select cur x (before ++ .mk p g paren b :: after)) (runBlock H ρ' ss) vs := by
  obtain ⟨r', out, ho⟩ := arms_all _ ha
  have := fills_match H ρ x _ ht r' out ho
  rw [arms_pick H ρ x before p g paren b after ρ' hpick r ss hq r' out ho hbefore] at this
  exact ⟨h, this⟩

/-! ## Sample -/

namespace TemplateSample

/-- A block of three lines, and a text. `o` is not a block. -/
def host : Host Str Str Unit where
  value _ e :=
    if e = ['v'] then [.append (.literal (.static c!"Point {")), .indent, .append (.literal (.box c!"x: 1,")), .push,
      .append (.openQuote false), .append (.literal (.static c!"y")), .append .closeQuote, .unindent,
      .append (.literal (.static ['}']))]
    else if e = ['o'] then [.append (.literal (.static ['{'])), .indent, .append (.literal (.static ['x']))]
    else [.append (.literal (.box e))]
  scope _ _ := []
  iter _ _ _ := [(), ()]
  test _ _ := some ()
  pick _ _ _ _ := none
  bind _ _ _ := ()

def cfg : Config := ⟨.space 2, ['\n']⟩

def lang : Lang Str := rustLang (fun s => [s])

/-- `$e` -/
def hole (e : Str) : Slot Str := .hole 2 (fun cur => .eval cur e)

def exprOf (n : Cur → Node Str) : Str :=
  match n ⟨⟨0, 0⟩, ⟨0, 0⟩⟩ with
  | .eval _ e => e
  | _ => []

def calls (n : Cur → Node Str) : List (Call Str) := host.value () (exprOf n)

def linesOf (n : Cur → Node Str) : List Str :=
  if exprOf n = ['v'] then [c!"Point {", c!"  x: 1,", c!"  \"y\"", c!"}"] else [exprOf n]

/-- The lines
```
let a = f($v, $t);
  $v

$t;
```
-/
def rows : List (Row Str) := [
  ⟨0, 4, .word c!"let", [(1, .word c!"a"), (1, .word c!"="), (1, .word c!"f"), (0, .word c!"("), (0, hole ['v']),
    (0, .word c!","), (1, hole ['t']), (0, .word c!")"), (0, .word c!";")]⟩,
  ⟨0, 6, hole ['v'], []⟩,
  ⟨1, 4, hole ['t'], [(0, .word c!";")]⟩]

/-- The nodes for them, with the parentheses as a group. -/
def nodes : List (Node Str) := [
  .tree ⟨⟨7, 4⟩, ⟨7, 7⟩⟩ c!"let", .tree ⟨⟨7, 8⟩, ⟨7, 9⟩⟩ c!"a", .tree ⟨⟨7, 10⟩, ⟨7, 11⟩⟩ c!"=",
  .tree ⟨⟨7, 12⟩, ⟨7, 13⟩⟩ c!"f",
  .group ⟨⟨7, 13⟩, ⟨7, 21⟩⟩ .parenthesis [.eval ⟨⟨7, 14⟩, ⟨7, 16⟩⟩ ['v'], .tree ⟨⟨7, 16⟩, ⟨7, 17⟩⟩ c!",",
    .eval ⟨⟨7, 18⟩, ⟨7, 20⟩⟩ ['t']],
  .tree ⟨⟨7, 21⟩, ⟨7, 22⟩⟩ c!";",
  .eval ⟨⟨8, 6⟩, ⟨8, 8⟩⟩ ['v'],
  .eval ⟨⟨10, 4⟩, ⟨10, 6⟩⟩ ['t'], .tree ⟨⟨10, 6⟩, ⟨10, 7⟩⟩ c!";"]

theorem block_v : BlockOf lang cfg (host.value () ['v']) [c!"Point {", c!"  x: 1,", c!"  \"y\"", c!"}"] := by
  refine ⟨⟨⟨_, _, rfl, rfl⟩, ⟨((host.value () ['v']).flatMap callItems).dropLast, .literal (.static ['}']),
    by decide +kernel, rfl⟩,
    .item (.literal (.static c!"Point {")) (.item (.indentation 1) (.item (.literal (.static c!"x: 1,"))
      (.item .push (.quote false (.item (.literal (.static c!"y")) .nil) (.item (.indentation (-1))
        (.item (.literal (.static ['}'])) .nil)))))), by decide +kernel, by decide +kernel, ?_⟩,
    .inl (fun _ => rfl), by decide +kernel⟩
  refine ⟨⟨_, _, rfl, by decide⟩, ⟨[.text c!"Point {", .indent 1, .text c!"x: 1,", .push, .text ['"'], .text c!"y",
    .text ['"'], .indent (-1)], ['}'], by decide +kernel, by decide⟩, ?_, by decide +kernel⟩
  intro p hp
  rw [← List.mem_inits] at hp
  revert p
  decide +kernel

/-- The template meets the hypotheses. -/
theorem rows_in : ∀ x ∈ rows, ∀ s ∈ x.slots, SlotIn host () lang cfg calls linesOf s := by
  have hv : SlotIn host () lang cfg calls linesOf (hole ['v']) := C76_value host () lang cfg ['v'] _ block_v
  have ht : SlotIn host () lang cfg calls linesOf (hole ['t']) :=
    C76_value host () lang cfg ['t'] _ (C76_text lang cfg (.box ['t']) (by decide))
  intro x hx s hs
  simp only [rows, List.mem_cons, List.not_mem_nil, or_false] at hx
  rcases hx with rfl | rfl | rfl <;>
    simp only [Row.slots, List.map_cons, List.map_nil, List.mem_cons, List.not_mem_nil, or_false] at hs
  · rcases hs with rfl | rfl | rfl | rfl | rfl | rfl | rfl | rfl | rfl | rfl
    all_goals first | exact hv | exact ht | exact List.cons_ne_nil _ _
  · subst hs; exact hv
  · rcases hs with rfl | rfl
    · exact ht
    · exact List.cons_ne_nil _ _

theorem full : ∀ ρ e, ∀ c ∈ host.value ρ e, ¬ EmptyCall c := by
  intro ρ e c hc he
  cases he
  by_cases h1 : e = ['v']
  · subst h1
    simp [host] at hc
  · by_cases h2 : e = ['o']
    · subst h2
      simp [host] at hc
    · simp [host, h1, h2] at hc

/-- The value of three lines is put into a line and on a line further in. -/
example : ∃ r ss, Macro.quote none nodes = .ok (r, ss) ∧
    toVec lang cfg (history (runBlock host () ss)).items = some [c!"let a = f(Point {", c!"  x: 1,", c!"  \"y\"",
      c!"}, t);", c!"  Point {", c!"    x: 1,", c!"    \"y\"", c!"  }", c!"", c!"t;"] := by
  obtain ⟨r, ss, h1, h2⟩ := C76_template host full (fun _ _ _ h => by cases h) () lang _ (fun _ => rfl) cfg calls linesOf rows
    (by simp [rows]) rows_in (by simp only [rows, Template.Offside]; decide) 7 nodes rfl
  exact ⟨r, ss, h1, h2.trans (by decide +kernel)⟩

/-- What it makes is a block. -/
example : lastLevel [] rows = 0 := by decide

/-- The separator `(, )` and the separator `($['\\n'])`. -/
example : ∃ ss ss', Macro.quote (some ⟨⟨1, 29⟩, ⟨1, 33⟩⟩) [.tree ⟨⟨1, 30⟩, ⟨1, 31⟩⟩ [',']] = .ok (false, ss) ∧
    (∀ ρ', runBlock host ρ' ss = (Template.Sep.text false [','] true).calls) ∧
    Macro.quote (some ⟨⟨1, 29⟩, ⟨1, 37⟩⟩) [.control ⟨⟨1, 30⟩, ⟨1, 36⟩⟩ .line] = .ok (false, ss') ∧
    ∀ ρ', runBlock host ρ' ss' = (Template.Sep.stack true).calls :=
  ⟨_, _, rfl, fun _ => rfl, rfl, fun _ => rfl⟩

/-- The loop `$(for p in i join (, ) => $v)`. -/
example : ∃ cs, Hole host () lang cfg (fun cur => .joined cur ['p'] ['i'] ⟨⟨1, 29⟩, ⟨1, 33⟩⟩
    [.tree ⟨⟨1, 30⟩, ⟨1, 31⟩⟩ [',']] [.eval ⟨⟨1, 37⟩, ⟨1, 39⟩⟩ ['v']]) cs
    [c!"Point {", c!"  x: 1,", c!"  \"y\"", c!"}, Point {", c!"  x: 1,", c!"  \"y\"", c!"}"] :=
  C76_loop host () lang _ (fun _ => rfl) cfg ['p'] ['i'] _ _ _ rfl rfl false false [.value ['v']] _ rfl rfl
    (.text false [','] true) (by simp [Template.Sep.ok]) (fun _ => rfl)
    (fun _ => [c!"Point {", c!"  x: 1,", c!"  \"y\"", c!"}"]) (List.cons_ne_nil _ _)
    (fun ρ' _ => by
      have : runBlock host ρ' [.value ['v']] = host.value () ['v'] := rfl
      rw [this]
      exact block_v)

/-- The loop `$(for p in i => $v)`. -/
example : ∃ cs, Hole host () lang cfg (fun cur => .loop cur ['p'] ['i'] [.eval ⟨⟨1, 17⟩, ⟨1, 19⟩⟩ ['v']]) cs
    [c!"Point {", c!"  x: 1,", c!"  \"y\"", c!"}Point {", c!"  x: 1,", c!"  \"y\"", c!"}"] :=
  C76_each host () lang _ (fun _ => rfl) cfg ['p'] ['i'] _ rfl false [.value ['v']] rfl
    (fun _ => [c!"Point {", c!"  x: 1,", c!"  \"y\"", c!"}"]) (List.cons_ne_nil _ _)
    (fun ρ' _ => by
      have : runBlock host ρ' [.value ['v']] = host.value () ['v'] := rfl
      rw [this]
      exact block_v)

/-- A host in which a pattern takes the value of the same name. -/
def picky : Host Str Str Unit := { host with test := fun _ e => if e = ['y'] then some () else none,
                                               pick := fun _ e p _ => if e = p then some () else none }

/-- The condition `$(if n => $a else $t)`, which does not hold. -/
example : Hole picky () lang cfg (fun cur => .ifElse cur ['n'] [.eval ⟨⟨1, 11⟩, ⟨1, 13⟩⟩ ['a']]
    [.eval ⟨⟨1, 19⟩, ⟨1, 21⟩⟩ ['t']]) [.append (.literal (.box ['t']))] [['t']] :=
  C76_else picky () lang cfg ['n'] _ _ _ rfl rfl false false [.value ['a']] [.value ['t']] rfl rfl
    (C76_text lang cfg (.box ['t']) (by decide))

/-- The match `$(match q { p => $a, q => $t, q => $a })`. -/
example : Hole picky () lang cfg (fun cur => .select cur ['q']
    ([.mk ['p'] none none [.eval ⟨⟨1, 20⟩, ⟨1, 22⟩⟩ ['a']]] ++ .mk ['q'] none none [.eval ⟨⟨1, 29⟩, ⟨1, 31⟩⟩ ['t']] ::
      [.mk ['q'] none none [.eval ⟨⟨1, 38⟩, ⟨1, 40⟩⟩ ['a']]])) [.append (.literal (.box ['t']))] [['t']] :=
  C76_match picky () lang cfg ['q'] _ _ ['q'] none none _ _ rfl (fun p g q b hb => by
      simp only [List.cons_append, List.nil_append, List.mem_cons, Arm.mk.injEq, List.not_mem_nil, or_false] at hb
      rcases hb with ⟨-, -, rfl, rfl⟩ | ⟨-, -, rfl, rfl⟩ | ⟨-, -, rfl, rfl⟩ <;> exact ⟨_, rfl⟩)
    (fun p g q b hb => by
      simp only [List.mem_cons, Arm.mk.injEq, List.not_mem_nil, or_false] at hb
      obtain ⟨rfl, rfl, -, -⟩ := hb
      rfl) () rfl false [.value ['t']] rfl (C76_text lang cfg (.box ['t']) (by decide))

/-- Lines of a loop with a comma and a line break. -/
example : (Template.Sep.text false [','] true).lines [[c!"{", c!"}"], [c!"a"], [c!"(", c!")"]] =
    [c!"{", c!"}, a, (", c!")"] ∧ (Template.Sep.stack true).lines [[c!"{", c!"}"], [c!"a"]] = [c!"{", c!"}", c!"", c!"a"] := by
  decide

end TemplateSample

open TemplateSample in
/-- C76. A value that does not end on the level it starts on is no block, and moves the lines below
it. -/
theorem C76_negative :
    toVec lang cfg (history (host.value () ['o'])).items = some [c!"{", c!"  x"] ∧
    ∃ ss, Macro.quote none [.tree ⟨⟨1, 0⟩, ⟨1, 1⟩⟩ ['a'], .eval ⟨⟨1, 1⟩, ⟨1, 3⟩⟩ ['o'], .tree ⟨⟨2, 0⟩, ⟨2, 1⟩⟩ ['b']] =
        .ok (false, ss) ∧
      toVec lang cfg (history (runBlock host () ss)).items = some [c!"a{", c!"  x", c!"  b"] ∧
      Template.outLines cfg (fun _ => [c!"{", c!"  x"]) [] [⟨0, 0, .word ['a'], [(0, hole ['o'])]⟩, ⟨0, 0, .word ['b'], []⟩] =
        [c!"a{", c!"  x", c!"b"] := by
  refine ⟨by decide +kernel, _, rfl, by decide +kernel, by decide +kernel⟩

end Genco.Props
