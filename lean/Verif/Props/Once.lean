import Verif.Props.Macro
import Verif.Proofs.MacroParse
import Verif.Model.Lex

/-!
# The code of a template in the generated code

C55 tells what the generated code does. Here is what it is: with the calls of constant text
and whitespace taken out, the statements are the expressions of the template, every one once
and where it is in the template.
-/

set_option autoImplicit false

namespace Genco.Props

open Spec Spec.MacroFile Macro

namespace Once

variable {ι E : Type}

/-- The Rust code in a template. -/
inductive Flow (E : Type) where
  | value (e : E)
  | scope (bound : Bool) (e : E)
  | loop (pat iter : E) (body : List (Flow E))
  | joined (pat iter : E) (sep body : List (Flow E))
  | ifThen (c : E) (t : List (Flow E))
  | ifElse (c : E) (t e : List (Flow E))
  | select (e : E) (arms : List (E × Option E × List (Flow E)))
  | bind (pat e : E)

/-! ## Of templates -/

mutual

/-- The Rust code written in a template, in the order of the source. -/
def written : List (Node E) → List (Flow E)
  | [] => []
  | n :: ns => writtenOne n ++ written ns

def writtenOne : Node E → List (Flow E)
  | .tree _ _ => []
  | .escape _ => []
  | .control _ _ => []
  | .quoted _ _ => []
  | .literal _ _ => []
  | .eval _ x => [.value x]
  | .scope _ b x => [.scope b x]
  | .bind _ p x => [.bind p x]
  | .loop _ p i body => [.loop p i (written body)]
  | .joined _ p i _ sep body => [.joined p i (written sep) (written body)]
  | .ifThen _ c t => [.ifThen c (written t)]
  | .ifElse _ c t f => [.ifElse c (written t) (written f)]
  | .select _ x as => [.select x (writtenArms as)]
  | .group _ _ content => written content
  | .str _ _ ps => writtenParts ps

def writtenArms : List (Arm E) → List (E × Option E × List (Flow E))
  | [] => []
  | .mk p g _ block :: as => (p, g, written block) :: writtenArms as

/-- `$name` in a string is constant text, as the code has it. -/
def writtenParts : List (Part E) → List (Flow E)
  | [] => []
  | .raw _ x :: ps => .value x :: writtenParts ps
  | .stream _ _ content :: ps => written content ++ writtenParts ps
  | .dollar _ :: ps => writtenParts ps
  | .constant _ _ :: ps => writtenParts ps
  | .ident _ _ :: ps => writtenParts ps
  | .tt _ _ :: ps => writtenParts ps

end

/-! ## Of generated flow -/

mutual

/-- The Rust code in generated statements. -/
def flow : List (Stmt ι E) → List (Flow E)
  | [] => []
  | s :: ss => flowOne s ++ flow ss

def flowOne : Stmt ι E → List (Flow E)
  | .call _ => []
  | .value x => [.value x]
  | .scope b x => [.scope b x]
  | .bind p x => [.bind p x]
  | .forIn p i body => [.loop p i (flow body)]
  | .joinIn p i sep body => [.joined p i (flow sep) (flow body)]
  | .ifThen c t => [.ifThen c (flow t)]
  | .ifElse c t f => [.ifElse c (flow t) (flow f)]
  | .select x as => [.select x (flowArms as)]

def flowArms : List (E × Option E × List (Stmt ι E)) → List (E × Option E × List (Flow E))
  | [] => []
  | (p, g, block) :: as => (p, g, flow block) :: flowArms as

end

theorem flow_append (a b : List (Stmt ι E)) : flow (a ++ b) = flow a ++ flow b := by
  induction a with
  | nil => rfl
  | cons s a ih => rw [List.cons_append, flow, flow, ih, List.append_assoc]

theorem flow_calls (ss : List (Stmt ι E)) (h : ∀ s ∈ ss, ∃ c, s = .call c) : flow ss = [] := by
  induction ss with
  | nil => rfl
  | cons s ss ih =>
    obtain ⟨c, rfl⟩ := h s (List.mem_cons_self ..)
    rw [flow, ih (fun t ht => h t (List.mem_cons_of_mem _ ht))]
    rfl

theorem flow_extend (e : Enc ι E) (ss : List (Stmt ι E)) : flow (e.extend ss).output = flow e.output ++ flow ss :=
  flow_append _ _

theorem flow_flush (e : Enc ι E) : flow e.flush.output = flow e.output := by
  unfold Enc.flush
  split
  · rfl
  · exact (flow_append _ _).trans (List.append_nil _)

theorem flow_line (line : Bool) (ss : List (Stmt ι E)) :
    flow (.call .unindent :: (if line then [.call .line] else []) ++ ss) = flow ss := by
  cases line <;> simp [flow, flowOne]

theorem flow_unindents (c : Nat) (line : Bool) : ∀ (l rest : List Nat) (out : List (Stmt ι E)),
    Enc.unindents c line l = .ok (rest, out) → flow out = [] := by
  intro l
  induction l with
  | nil => intro rest out h; cases h; rfl
  | cons d l ih =>
    intro rest out h
    rw [Enc.unindents] at h
    split at h
    · obtain ⟨⟨r, o⟩, h1, h2⟩ := ok_bind h
      cases h2
      rw [flow_line]
      exact ih _ _ h1
    · split at h
      · cases h
        cases line <;> rfl
      · cases h

theorem flow_tokenize {e e' : Enc ι E} {a b : Pos} (h : e.tokenizeWhitespace a b = .ok e') :
    flow e'.output = flow e.output := by
  unfold Enc.tokenizeWhitespace at h
  split at h
  · cases h; rfl
  split at h
  · split at h
    · cases h
      rw [flow_extend, flow_flush]
      exact List.append_nil _
    · cases h; rfl
  · dsimp only at h
    split at h
    · cases h
    · split at h
      · cases h; exact flow_flush e
      · rename_i c hc
        split at h
        · cases h
          refine (flow_append _ _).trans ?_
          rw [flow_flush]
          cases decide (b.line - a.line > 1) <;> exact List.append_nil _
        · split at h
          · obtain ⟨⟨r, o⟩, h1, h2⟩ := ok_bind h
            cases h2
            refine (flow_append _ _).trans ?_
            rw [flow_flush, flow_unindents _ _ _ _ _ h1]
            exact List.append_nil _
          · split at h <;>
            · cases h
              refine (flow_append _ _).trans ?_
              rw [flow_flush]
              exact List.append_nil _

theorem flow_origin (e : Enc ι E) : e.origin.1.output = e.output := by
  unfold Enc.origin
  split
  · rfl
  · split
    · split <;> rfl
    · rfl

theorem flow_step {e e' : Enc ι E} {cur : Cur} (h : e.step cur = .ok e') : flow e'.output = flow e.output := by
  unfold Enc.step at h
  have ho := flow_origin e
  cases hr : e.origin with
  | mk e1 o =>
    rw [hr] at h ho
    cases o with
    | none => cases h; exact congrArg flow ho
    | some p =>
      obtain ⟨e2, h1, h2⟩ := ok_bind h
      cases h2
      exact (flow_tokenize h1).trans (congrArg flow ho)

/-- The Rust code of what is given to the encoder. -/
def flowAst : Ast ι E → List (Flow E)
  | .tree _ | .quoted _ | .literal _ | .delimiterOpen _ | .delimiterClose _ | .control _ => []
  | .string _ ss => flow ss
  | .eval x => [.value x]
  | .scope b x => [.scope b x]
  | .loop p i none ss => [.loop p i (flow ss)]
  | .loop p i (some j) ss => [.joined p i (flow j) (flow ss)]
  | .condition c t none => [.ifThen c (flow t)]
  | .condition c t (some f) => [.ifElse c (flow t) (flow f)]
  | .bind p x => [.bind p x]
  | .select x as => [.select x (flowArms as)]

theorem flow_ast (e : Enc ι E) (a : Ast ι E) : flow (e.encodeAst a).output = flow e.output ++ flowAst a := by
  have one : ∀ s : Stmt ι E, flow (e.flush.extend [s]).output = flow e.output ++ flowOne s := by
    intro s
    rw [flow_extend, flow_flush, flow, flow, List.append_nil]
  cases a with
  | tree s => exact (List.append_nil _).symm
  | literal s => exact (List.append_nil _).symm
  | delimiterOpen d => exact (List.append_nil _).symm
  | delimiterClose d => exact (List.append_nil _).symm
  | string b ss =>
    unfold Enc.encodeAst
    rw [flow_extend, flow_flush]
    show flow e.output ++ flow (_ :: (ss ++ [_])) = _
    rw [flow, flow_append]
    simp [flow, flowOne, flowAst]
  | quoted s =>
    unfold Enc.encodeAst
    rw [flow_extend, flow_flush]
    rfl
  | control k => cases k <;> exact one _
  | eval x => exact one _
  | scope b x =>
    cases b with
    | true => exact one _
    | false => exact flow_extend e _
  | loop p i j s => cases j <;> exact one _
  | condition c t f => cases f <;> exact one _
  | select x as => exact one _
  | bind p x => exact one _

theorem flow_encode {e e' : Enc ι E} {cur : Cur} {a : Ast ι E} (h : e.encode cur a = .ok e') :
    flow e'.output = flow e.output ++ flowAst a := by
  unfold Enc.encode at h
  obtain ⟨e1, h1, h2⟩ := ok_bind (x := e.step cur) (f := fun e => .ok (e.encodeAst a)) h
  cases h2
  rw [flow_ast, flow_step h1]

theorem flow_into {e : Enc ι E} {r : Bool} {ss : List (Stmt ι E)} (h : e.intoOutput = .ok (r, ss)) :
    flow ss = flow e.output := by
  have last : ∀ e' : Enc ι E, flow (e'.flush.output ++ List.replicate e'.flush.indents.length (.call .unindent)) =
      flow e'.output := by
    intro e'
    rw [flow_append, flow_flush, flow_calls _ (fun s hs => ⟨_, List.eq_of_mem_replicate hs⟩), List.append_nil]
  unfold Enc.intoOutput at h
  cases hs : e.spanEnd with
  | none => rw [hs] at h; cases h; exact last e
  | some q =>
    rw [hs] at h
    dsimp only at h
    have ho := flow_origin { e with spanEnd := none }
    cases hr : Enc.origin { e with spanEnd := none } with
    | mk e1 o =>
      rw [hr] at h ho
      dsimp only at ho
      cases o with
      | none => cases h; exact (last e1).trans (congrArg flow ho)
      | some p =>
        dsimp only at h
        cases ht : Enc.tokenizeWhitespace e1 p q with
        | error x => rw [ht] at h; cases h
        | ok e2 => rw [ht] at h; cases h; exact (last e2).trans ((flow_tokenize ht).trans (congrArg flow ho))

/-! ## Strings -/

theorem flow_strWs {s s' : StrEnc ι E} {a : Pos} {b : Option Pos} (h : s.flushWhitespace a b = .ok s') :
    s'.stream = s.stream := by
  unfold StrEnc.flushWhitespace at h
  split at h
  · cases h; rfl
  · split at h <;> cases h
    rfl

theorem flow_strFlush {s s' : StrEnc ι E} {a : Pos} {b : Option Pos} (h : s.flush a b = .ok s') :
    flow s'.stream = flow s.stream := by
  unfold StrEnc.flush at h
  obtain ⟨s1, h1, h2⟩ := ok_bind h
  have := flow_strWs h1
  split at h2 <;> cases h2
  · rw [this]
  · rw [flow_append, this]
    exact List.append_nil _

theorem flow_strText {s s' : StrEnc ι E} {t : Str} {a b : Pos} (h : s.encodeStr t a b = .ok s') :
    flow s'.stream = flow s.stream := by
  unfold StrEnc.encodeStr at h
  obtain ⟨s1, h1, h2⟩ := ok_bind h
  cases h2
  show flow s1.stream = _
  rw [flow_strWs h1]

theorem flow_strEval {s s' : StrEnc ι E} {ss : List (Stmt ι E)} {a b : Pos} (h : s.evalStream ss a b = .ok s') :
    flow s'.stream = flow s.stream ++ flow ss := by
  unfold StrEnc.evalStream at h
  obtain ⟨s1, h1, h2⟩ := ok_bind h
  cases h2
  show flow (s1.stream ++ _ :: ss ++ [_]) = _
  rw [flow_append, flow_append, flow_strFlush h1]
  simp [flow, flowOne]

theorem flow_strRaw {s s' : StrEnc ι E} {x : E} {a b : Pos} (h : s.rawExpr x a b = .ok s') :
    flow s'.stream = flow s.stream ++ [.value x] := by
  unfold StrEnc.rawExpr at h
  obtain ⟨s1, h1, h2⟩ := ok_bind h
  cases h2
  show flow (s1.stream ++ [_]) = _
  rw [flow_append, flow_strFlush h1]
  rfl

/-! ## Templates -/

mutual

theorem flow_nodes : (ns : List (Node E)) → ∀ e e' : Enc ι E, nodes e ns = .ok e' →
    flow e'.output = flow e.output ++ written ns
  | [], e, e', h => by cases h; exact (List.append_nil _).symm
  | n :: ns, e, e', h => by
    obtain ⟨e1, h1, h2⟩ := ok_bind (x := node e n) (f := fun e => nodes e ns) h
    rw [flow_nodes ns e1 e' h2, flow_node n e e1 h1, written, List.append_assoc]

theorem flow_node : (n : Node E) → ∀ e e' : Enc ι E, node e n = .ok e' →
    flow e'.output = flow e.output ++ writtenOne n
  | .tree cur text, e, e', h => flow_encode h
  | .escape cur, e, e', h => flow_encode h
  | .str cur paren ps, e, e', h => by
    obtain ⟨⟨s, r⟩, h1, h2⟩ := ok_bind h
    obtain ⟨s', h2, h3⟩ := ok_bind h2
    refine (flow_encode h3).trans ?_
    rw [flowAst, flow_strFlush h2, flow_parts ps _ _ _ _ h1]
    rfl
  | .control cur k, e, e', h => flow_encode h
  | .quoted cur s, e, e', h => flow_encode h
  | .literal cur s, e, e', h => flow_encode h
  | .eval cur x, e, e', h => flow_encode h
  | .scope cur bound content, e, e', h => flow_encode h
  | .loop cur pat iter body, e, e', h => by
    obtain ⟨e1, h1, h2⟩ := ok_bind h
    obtain ⟨⟨r, ss⟩, h2, h3⟩ := ok_bind h2
    refine (flow_encode h3).trans ?_
    rw [flowAst, flow_into h2, flow_nodes body _ e1 h1]
    rfl
  | .joined cur pat iter paren sep body, e, e', h => by
    obtain ⟨e1, h1, h2⟩ := ok_bind h
    obtain ⟨⟨r, ss⟩, h2, h3⟩ := ok_bind h2
    obtain ⟨e2, h4, h5⟩ := ok_bind h3
    obtain ⟨⟨r', ss'⟩, h5, h6⟩ := ok_bind h5
    refine (flow_encode h6).trans ?_
    rw [flowAst, flow_into h2, flow_nodes sep _ e1 h1, flow_into h5, flow_nodes body _ e2 h4]
    rfl
  | .ifThen cur c t, e, e', h => by
    obtain ⟨e1, h1, h2⟩ := ok_bind h
    obtain ⟨⟨r, ss⟩, h2, h3⟩ := ok_bind h2
    refine (flow_encode h3).trans ?_
    rw [flowAst, flow_into h2, flow_nodes t _ e1 h1]
    rfl
  | .ifElse cur c t f, e, e', h => by
    obtain ⟨e1, h1, h2⟩ := ok_bind h
    obtain ⟨⟨r, ss⟩, h2, h3⟩ := ok_bind h2
    obtain ⟨e2, h4, h5⟩ := ok_bind h3
    obtain ⟨⟨r', ss'⟩, h5, h6⟩ := ok_bind h5
    refine (flow_encode h6).trans ?_
    rw [flowAst, flow_into h2, flow_nodes t _ e1 h1, flow_into h5, flow_nodes f _ e2 h4]
    rfl
  | .select cur x as, e, e', h => by
    obtain ⟨⟨r, out⟩, h1, h2⟩ := ok_bind h
    refine (flow_encode h2).trans ?_
    rw [flowAst, flow_arms as _ _ h1]
    rfl
  | .bind cur pat x, e, e', h => flow_encode h
  | .group cur d content, e, e', h => by
    obtain ⟨e1, h1, h2⟩ := ok_bind h
    obtain ⟨e2, h2, h3⟩ := ok_bind h2
    refine (flow_encode h3).trans ?_
    rw [flow_nodes content e1 e2 h2, flow_encode h1]
    simp [flowAst, writtenOne]

theorem flow_arms : (as : List (Arm E)) → ∀ (r : Bool) (out : List (E × Option E × List (Stmt ι E))),
    arms as = .ok (r, out) → flowArms out = writtenArms as
  | [], r, out, h => by cases h; rfl
  | .mk pat guard paren block :: as, r, out, h => by
    obtain ⟨e1, h1, h2⟩ := ok_bind h
    obtain ⟨⟨r1, ss⟩, h6, h3⟩ := ok_bind h2
    obtain ⟨⟨r2, out'⟩, h4, h5⟩ := ok_bind h3
    cases h5
    rw [flowArms, writtenArms, flow_arms as _ _ h4, flow_into h6, flow_nodes block _ e1 h1]
    cases paren <;> rfl

theorem flow_parts : (ps : List (Part E)) → ∀ (s s' : StrEnc ι E) (r r' : Bool), parts s r ps = .ok (s', r') →
    flow s'.stream = flow s.stream ++ writtenParts ps
  | [], s, s', r, r', h => by cases h; exact (List.append_nil _).symm
  | .dollar cur :: ps, s, s', r, r', h => by
    obtain ⟨s1, h1, h2⟩ := ok_bind h
    rw [flow_parts ps s1 s' _ _ h2, flow_strText h1, writtenParts]
  | .constant cur t :: ps, s, s', r, r', h => by
    obtain ⟨s1, h1, h2⟩ := ok_bind h
    rw [flow_parts ps s1 s' _ _ h2, flow_strText h1, writtenParts]
  | .raw cur x :: ps, s, s', r, r', h => by
    obtain ⟨s1, h1, h2⟩ := ok_bind h
    rw [flow_parts ps s1 s' _ _ h2, flow_strRaw h1, writtenParts, List.append_assoc]
    rfl
  | .ident cur name :: ps, s, s', r, r', h => by
    obtain ⟨s1, h1, h2⟩ := ok_bind h
    rw [flow_parts ps s1 s' _ _ h2, flow_strEval h1, writtenParts]
    simp [flow, flowOne]
  | .stream cur span content :: ps, s, s', r, r', h => by
    obtain ⟨e1, h1, h2⟩ := ok_bind h
    obtain ⟨⟨r1, ss⟩, h2, h3⟩ := ok_bind h2
    obtain ⟨s1, h4, h5⟩ := ok_bind h3
    rw [flow_parts ps s1 s' _ _ h5, flow_strEval h4, writtenParts, flow_into h2, flow_nodes content _ e1 h1,
      List.append_assoc]
    rfl
  | .tt cur text :: ps, s, s', r, r', h => by
    obtain ⟨s1, h1, h2⟩ := ok_bind h
    rw [flow_parts ps s1 s' _ _ h2, flow_strText h1, writtenParts]

end

/-! ## Source -/

mutual

/-- The tokens of a source, with their places; a group has one at either end. -/
def flat : List TT → List (Cur × Str)
  | [] => []
  | t :: ts => flatOne t ++ flat ts

def flatOne : TT → List (Cur × Str)
  | .ident cur name => [(cur, name)]
  | .punct cur c _ => [(cur, [c])]
  | .str cur _ text => [(cur, text)]
  | .char cur _ text => [(cur, text)]
  | .lit cur text => [(cur, text)]
  | .group cur d content => (cur, [d.encodeOpen]) :: flat content ++ [(cur, [d.encodeClose])]

end

mutual

/-- The tokens of the Rust code, one piece behind the other. -/
def spelled : List (Flow (List TT)) → List (Cur × Str)
  | [] => []
  | f :: fs => spelledOne f ++ spelled fs

def spelledOne : Flow (List TT) → List (Cur × Str)
  | .value e => flat e
  | .scope _ e => flat e
  | .loop pat iter body => flat pat ++ flat iter ++ spelled body
  | .joined pat iter sep body => flat pat ++ flat iter ++ spelled sep ++ spelled body
  | .ifThen c t => flat c ++ spelled t
  | .ifElse c t e => flat c ++ spelled t ++ spelled e
  | .select e as => flat e ++ spelledArms as
  | .bind pat e => flat pat ++ flat e

def spelledArms : List (List TT × Option (List TT) × List (Flow (List TT))) → List (Cur × Str)
  | [] => []
  | (pat, guard, block) :: as => flat pat ++ flat (guard.getD []) ++ spelled block ++ spelledArms as

end

/-- The parsers of `syn` cut their input in what they have read and the rest. -/
structure Cuts (S : Syn) : Prop where
  expr : ∀ ts e r, S.expr ts = some (e, r) → ts = e ++ r
  fullExpr : ∀ ts e r, S.fullExpr ts = some (e, r) → ts = e ++ r
  pat : ∀ ts e r, S.pat ts = some (e, r) → ts = e ++ r
  patMulti : ∀ ts e r, S.patMulti ts = some (e, r) → ts = e ++ r

theorem upTo_cuts (stop : List TT → Bool) (ts : List TT) : ∀ e r, upTo stop ts = some (e, r) → ts = e ++ r := by
  induction ts with
  | nil => intro e r h; cases h
  | cons t ts ih =>
    intro e r h
    unfold upTo at h
    cases ts with
    | nil => cases h; rfl
    | cons u us =>
      dsimp only at h
      split at h
      · cases h; rfl
      · obtain ⟨⟨e', r'⟩, h1, h2⟩ := Option.map_eq_some_iff.1 h
        cases h2
        exact congrArg (t :: ·) (ih _ _ h1)

theorem syn_cuts : Cuts syn :=
  ⟨upTo_cuts _, upTo_cuts _, upTo_cuts _, upTo_cuts _⟩

theorem flat_append (a b : List TT) : flat (a ++ b) = flat a ++ flat b := by
  induction a with
  | nil => rfl
  | cons t a ih => rw [List.cons_append, flat, flat, ih, List.append_assoc]

theorem spelled_append (a b : List (Flow (List TT))) : spelled (a ++ b) = spelled a ++ spelled b := by
  induction a with
  | nil => rfl
  | cons f a ih => rw [List.cons_append, spelled, spelled, ih, List.append_assoc]

theorem flat_inside (cur : Cur) (d : Delimiter) (ts : List TT) : (flat ts).Sublist (flatOne (.group cur d ts)) :=
  ((List.sublist_append_left (flat ts) _).cons _)

theorem flat_sub {a b : List TT} (h : a.Sublist b) : (flat a).Sublist (flat b) := by
  induction h with
  | slnil => exact .slnil
  | cons t _ ih => exact ih.trans (List.sublist_append_right _ _)
  | cons_cons t _ ih => exact (List.Sublist.refl _).append ih

theorem sansComma_sub (ts : List TT) : (sansComma ts).Sublist ts := by
  unfold sansComma
  split
  · exact List.tail_sublist ts
  · exact .refl _

theorem guarded_sub {S : Syn} (hS : Cuts S) {us rest : List TT} {guard : Option (List TT)}
    (h : Guarded S us guard rest) : (flat (guard.getD []) ++ flat rest).Sublist (flat us) := by
  rcases h with ⟨-, rfl, rfl⟩ | ⟨c, vs, e, rfl, h, rfl⟩
  · exact .refl _
  · have := hS.fullExpr _ _ _ h
    subst this
    show (flat e ++ flat rest).Sublist (flatOne _ ++ flat (e ++ rest))
    rw [flat_append]
    exact List.sublist_append_right _ _

/-- The code of a form is in its tokens. -/
def Spelled : MacroFile.Form → Prop
  | .nodes ts ns => (spelled (written ns)).Sublist (flat ts)
  | .inside _ ts n => (spelled (writtenOne n)).Sublist (flat ts)
  | .body ts ns => (spelled (written ns)).Sublist (flat ts)
  | .arms ts as => (spelledArms (writtenArms as)).Sublist (flat ts)
  | .parts ts ps => (spelled (writtenParts ps)).Sublist (flat ts)

theorem spelled_cons {fs gs : List (Flow (List TT))} {t ts : List (Cur × Str)} (h : (spelled fs).Sublist t)
    (k : (spelled gs).Sublist ts) : (spelled (fs ++ gs)).Sublist (t ++ ts) := by
  rw [spelled_append]
  exact h.append k

theorem arm_sub {S : Syn} (hS : Cuts S) {a b : Cur} {j : Bool} {ts pat us r : List TT} {guard : Option (List TT)}
    (hp : S.patMulti ts = some (pat, us)) (hg : Guarded S us guard (arrow a b j ++ r)) {x y : List (Cur × Str)}
    (h : (x ++ y).Sublist (flat r)) : (flat pat ++ flat (guard.getD []) ++ x ++ y).Sublist (flat ts) := by
  have := hS.patMulti _ _ _ hp
  subst this
  rw [flat_append, List.append_assoc, List.append_assoc]
  refine (List.Sublist.refl _).append (List.Sublist.trans ?_ (guarded_sub hS hg))
  refine (List.Sublist.refl _).append (h.trans ?_)
  rw [flat_append]
  exact List.sublist_append_right _ _

theorem spelled_means {S : Syn} (hS : Cuts S) {f : MacroFile.Form} (h : Means S f) : Spelled f := by
  induction h with
  | nil => exact .slnil
  | word _ _ ih => exact ih.trans (List.sublist_append_right _ _)
  | quoted _ ih => exact ih.trans (List.sublist_append_right _ _)
  | group _ _ ih1 ih2 => exact spelled_cons (ih1.trans (flat_inside ..)) ih2
  | alone _ _ ih => exact ih.trans (List.sublist_append_right _ _)
  | escape _ ih => exact (ih.trans (List.sublist_append_right _ _)).trans (List.sublist_append_right _ _)
  | control _ _ _ ih => exact (ih.trans (List.sublist_append_right _ _)).trans (List.sublist_append_right _ _)
  | str _ _ ih1 ih2 =>
    exact ((spelled_cons (ih1.trans (flat_inside ..)) ih2).trans (List.sublist_append_right _ _)).trans
      (List.sublist_append_right _ _)
  | name _ _ ih => exact ((List.Sublist.refl _).append ih).trans (List.sublist_append_right _ _)
  | paren _ _ ih1 ih2 => exact (spelled_cons (ih1.trans (flat_inside ..)) ih2).trans (List.sublist_append_right _ _)
  | literal => exact List.nil_sublist _
  | eval _ _ h =>
    have := hS.fullExpr _ _ _ h
    rw [List.append_nil] at this
    subst this
    simp only [Spelled, writtenOne, spelled, spelledOne, List.append_nil]
    exact .refl _
  | ifThen h _ ih =>
    have := hS.expr _ _ _ h
    subst this
    simp only [Spelled, writtenOne, spelled, spelledOne, List.append_nil]
    refine List.Sublist.trans ?_ (List.sublist_append_right _ _)
    rw [flat_append]
    exact (List.Sublist.refl _).append ih
  | ifElse h _ _ ih1 ih2 =>
    have := hS.expr _ _ _ h
    subst this
    simp only [Spelled, writtenOne, spelled, spelledOne, List.append_nil]
    refine List.Sublist.trans ?_ (List.sublist_append_right _ _)
    rw [flat_append, List.append_assoc]
    refine (List.Sublist.refl _).append ((ih1.trans (flat_inside ..)).append ?_)
    exact List.Sublist.trans ((ih2.trans (flat_inside ..)).trans (List.sublist_append_left _ _))
      (List.sublist_append_right _ _)
  | loop h1 h2 _ _ ih =>
    have e1 := hS.pat _ _ _ h1
    have e2 := hS.expr _ _ _ h2
    subst e1 e2
    simp only [Spelled, writtenOne, spelled, spelledOne, List.append_nil]
    refine List.Sublist.trans ?_ (List.sublist_append_right _ _)
    rw [flat_append, List.append_assoc]
    refine (List.Sublist.refl _).append (List.Sublist.trans ?_ (List.sublist_append_right _ _))
    rw [flat_append]
    exact (List.Sublist.refl _).append ih
  | joined h1 h2 _ _ ih1 ih2 =>
    have e1 := hS.pat _ _ _ h1
    have e2 := hS.expr _ _ _ h2
    subst e1 e2
    simp only [Spelled, writtenOne, spelled, spelledOne, List.append_nil]
    refine List.Sublist.trans ?_ (List.sublist_append_right _ _)
    rw [flat_append, List.append_assoc, List.append_assoc]
    refine (List.Sublist.refl _).append (List.Sublist.trans ?_ (List.sublist_append_right _ _))
    rw [flat_append]
    refine (List.Sublist.refl _).append (List.Sublist.trans ?_ (List.sublist_append_right _ _))
    exact (ih1.trans (flat_inside ..)).append ih2
  | select h _ ih =>
    have := hS.expr _ _ _ h
    subst this
    simp only [Spelled, writtenOne, spelled, spelledOne, List.append_nil]
    refine List.Sublist.trans ?_ (List.sublist_append_right _ _)
    rw [flat_append]
    exact (List.Sublist.refl _).append ((ih.trans (flat_inside ..)).trans (List.sublist_append_left _ _))
  | bind h1 h2 =>
    have e1 := hS.pat _ _ _ h1
    have e2 := hS.expr _ _ _ h2
    rw [List.append_nil] at e2
    subst e1 e2
    simp only [Spelled, writtenOne, spelled, spelledOne, List.append_nil]
    refine List.Sublist.trans ?_ (List.sublist_append_right _ _)
    rw [flat_append]
    exact (List.Sublist.refl _).append (List.sublist_append_right _ _)
  | scope _ h =>
    simp only [Spelled, writtenOne, spelled, spelledOne, List.append_nil]
    refine List.Sublist.trans ?_ (List.sublist_append_right _ _)
    refine List.Sublist.trans ?_ (List.sublist_append_right _ _)
    rcases h with ⟨a1, a2, j, rfl⟩ | ⟨a1, rfl⟩
    · rw [flat_append]
      exact List.sublist_append_right _ _
    · exact (flat_inside ..).trans (List.sublist_append_left _ _)
  | behind _ ih => exact (ih.trans (List.sublist_append_right _ _)).trans (List.sublist_append_right _ _)
  | braces _ ih => exact (ih.trans (flat_inside ..)).trans (List.sublist_append_left _ _)
  | noArms => exact .slnil
  | armBlock _ hp hg hr _ _ ih1 ih2 =>
    subst hr
    exact arm_sub hS hp hg ((ih1.trans (flat_inside ..)).append (ih2.trans (flat_sub (sansComma_sub _))))
  | armParen _ hp hg hr _ _ ih1 ih2 =>
    subst hr
    exact arm_sub hS hp hg ((ih1.trans (flat_inside ..)).append (ih2.trans (flat_sub (sansComma_sub _))))
  | @armLine a b j ts pat us r guard ns as _ hp hg _ _ _ _ ih1 ih2 =>
    refine arm_sub hS hp hg ?_
    refine (ih1.append (ih2.trans (flat_sub (List.tail_sublist _)))).trans ?_
    rw [← flat_append, List.takeWhile_append_dropWhile]
  | noParts => exact .slnil
  | plain _ _ ih => exact ih.trans (List.sublist_append_right _ _)
  | dollar _ ih => exact (ih.trans (List.sublist_append_right _ _)).trans (List.sublist_append_right _ _)
  | constant _ ih =>
    exact ((ih.trans (List.sublist_append_right _ _)).trans (List.sublist_append_right _ _)).trans
      (List.sublist_append_right _ _)
  | raw _ h _ ih =>
    have := hS.fullExpr _ _ _ h
    rw [List.append_nil] at this
    subst this
    exact (((flat_inside ..).append ih).trans (List.sublist_append_right _ _)).trans (List.sublist_append_right _ _)
  | value _ _ ih => exact (ih.trans (List.sublist_append_right _ _)).trans (List.sublist_append_right _ _)
  | stream _ _ ih1 ih2 => exact (spelled_cons (ih1.trans (flat_inside ..)) ih2).trans (List.sublist_append_right _ _)

end Once

open Once

variable {ι E : Type}

/-- C109. The Rust code in what a macro generates is the Rust code in its template: every
expression, pattern, guard and condition once, in its order and at its depth, and nothing
else. Layout and constant text have no part in it. -/
theorem C109_code (span : Option Cur) (ns : List (Node E)) (r : Bool) (ss : List (Stmt ι E))
    (h : Macro.quote span ns = .ok (r, ss)) : flow ss = written ns := by
  obtain ⟨e, h1, h2⟩ := ok_bind (x := nodes (startEnc span) ns) (f := Enc.intoOutput) h
  rw [flow_into h2, flow_nodes ns _ e h1]
  cases span <;> rfl

/-- C109. The tokens of the Rust code in what a macro generates are tokens of its input, with
their places, each no more than once and in the order of the source: nothing is made up, said
twice or moved. -/
theorem C109_source (S : Syn) (hS : Cuts S) (ts : List TT) (ns : List (Node (List TT))) (hp : Parses S ts ns)
    (span : Option Cur) (r : Bool) (ss : List (Stmt ι (List TT))) (h : Macro.quote span ns = .ok (r, ss)) :
    (spelled (flow ss)).Sublist (flat ts) := by
  rw [C109_code span ns r ss h]
  exact spelled_means hS ((parses_iff S ts ns).1 hp)

/-- C109. A piece of Rust code that is in the input once is in the generated code once at
most: with tokens at different places, no token is there twice. -/
theorem C109_once (S : Syn) (hS : Cuts S) (ts : List TT) (hd : (flat ts).Nodup) (ns : List (Node (List TT)))
    (hp : Parses S ts ns) (span : Option Cur) (r : Bool) (ss : List (Stmt ι (List TT)))
    (h : Macro.quote span ns = .ok (r, ss)) : (spelled (flow ss)).Nodup :=
  hd.sublist (C109_source S hS ts ns hp span r ss h)

/-- What is written in a template with a joined loop in a group, a string and a match. -/
def onceSample : List (Node Str) :=
  [.tree ⟨⟨1, 4⟩, ⟨1, 5⟩⟩ ['f'], .group ⟨⟨1, 5⟩, ⟨1, 40⟩⟩ .parenthesis
    [.joined ⟨⟨1, 6⟩, ⟨1, 39⟩⟩ ['p'] ['i'] ⟨⟨1, 20⟩, ⟨1, 24⟩⟩ [.tree ⟨⟨1, 21⟩, ⟨1, 22⟩⟩ [','], .eval ⟨⟨1, 22⟩, ⟨1, 23⟩⟩ ['s']]
      [.eval ⟨⟨1, 28⟩, ⟨1, 30⟩⟩ ['x'], .ifThen ⟨⟨1, 31⟩, ⟨1, 38⟩⟩ ['c'] [.eval ⟨⟨1, 36⟩, ⟨1, 37⟩⟩ ['y']]]],
    .scope ⟨⟨2, 8⟩, ⟨2, 20⟩⟩ false ['g'],
    .select ⟨⟨3, 4⟩, ⟨3, 30⟩⟩ ['m'] [.mk ['q'] (some ['r']) none [.bind ⟨⟨3, 20⟩, ⟨3, 22⟩⟩ ['z'] ['w']]]]

example : written onceSample =
    [.joined ['p'] ['i'] [.value ['s']] [.value ['x'], .ifThen ['c'] [.value ['y']]], .scope false ['g'],
      .select ['m'] [(['q'], some ['r'], [.bind ['z'] ['w']])]] := rfl

example : (Macro.quote (ι := Str) none onceSample).toBool = true := by decide +kernel

/-- `a $(for x in y => b $x)` -/
def onceSource : List TT := ((lex .nightly ⟨1, 0, 0⟩ c!"a $(for x in y => b $x) $(if c { $d })").getD [])

example : (match parseAll syn 20 onceSource with
    | some ns => (Macro.quote (ι := Str) none ns).toBool &&
        (spelled (written ns)).map (·.2) == [['x'], ['y'], ['x'], ['c'], ['d']]
    | none => false) = true := by decide +kernel

example : (flat onceSource).Nodup := by decide +kernel

example : Cuts syn := syn_cuts

end Genco.Props
