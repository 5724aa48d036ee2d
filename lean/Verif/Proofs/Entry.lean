import Verif.Proofs.MacroEval
import Verif.Proofs.Layout
import Verif.Props.Tokens
import Verif.Model.Entry

/-!
# The three macros
-/

set_option autoImplicit false

namespace Genco.Macro

open Spec Spec.MacroFile Tokens

variable {ι E Env : Type}

/-! ## What comes first -/

theorem Firmly.append {a : List (Call ι)} (h : Firmly a) (b : List (Call ι)) : Firmly (a ++ b) := by
  obtain ⟨i, h1, h2⟩ := h
  refine ⟨i, ?_, h2⟩
  rw [List.flatMap_append, List.head?_append, h1]
  rfl

section

variable (H : Host ι E Env) (ρ : Env)

/-- The code generated so far starts with something other than whitespace. -/
def Headed (e : Enc ι E) : Prop :=
  Firmly (runBlock H ρ e.output) ∨ (runBlock H ρ e.output = [] ∧ e.itemBuffer ≠ [])

variable {H ρ}

theorem firmly_more {a : List (Stmt ι E)} (h : Firmly (runBlock H ρ a)) (b : List (Stmt ι E)) :
    Firmly (runBlock H ρ (a ++ b)) := by
  rw [runBlock_append]
  exact Firmly.append h _

theorem headed_flush {e : Enc ι E} (h : Headed H ρ e) : Firmly (runBlock H ρ e.flush.output) := by
  unfold Enc.flush
  rcases h with h | ⟨h1, h2⟩
  · split
    · exact h
    · exact firmly_more h _
  · rw [if_neg h2]
    show Firmly (runBlock H ρ (e.output ++ _))
    rw [runBlock_append, h1]
    exact ⟨.literal (.static e.itemBuffer), by simp [runBlock, runStmt, callItems], rfl⟩

theorem headed_of {e e' : Enc ι E} (ss : List (Stmt ι E)) (h : Headed H ρ e) (ho : e'.output = e.flush.output ++ ss) :
    Headed H ρ e' := Or.inl (by rw [ho]; exact firmly_more (headed_flush h) _)

theorem headed_same {e e' : Enc ι E} (h : Headed H ρ e) (ho : e'.output = e.output)
    (hb : e'.itemBuffer = e.itemBuffer) : Headed H ρ e' := by
  unfold Headed
  rw [ho, hb]
  exact h

theorem headed_tokenize {e e' : Enc ι E} {a b : Pos} (h : Headed H ρ e)
    (ht : e.tokenizeWhitespace a b = .ok e') : Headed H ρ e' := by
  unfold Enc.tokenizeWhitespace at ht
  split at ht
  · cases ht; exact h
  split at ht
  · split at ht
    · cases ht; exact headed_of _ h rfl
    · cases ht; exact h
  dsimp only at ht
  split at ht
  · cases ht
  split at ht
  · cases ht; exact headed_of [] h (by simp)
  · split at ht
    · cases ht; exact headed_of _ h rfl
    · split at ht
      · revert ht
        generalize Enc.unindents (ι := ι) (E := E) b.column _ _ = u
        intro ht
        cases u with
        | error x => cases ht
        | ok o => cases ht; exact headed_of _ h rfl
      · split at ht
        · cases ht; exact headed_of _ h rfl
        · cases ht; exact headed_of _ h rfl

theorem origin_buffer (e : Enc ι E) : e.origin.1.itemBuffer = e.itemBuffer := by
  obtain ⟨ss, se, ib, o, l, lc, i, r⟩ := e
  cases ss <;> cases l <;> cases lc <;> rfl

theorem headed_step {e e' : Enc ι E} {cur : Cur} (h : Headed H ρ e) (he : e.step cur = .ok e') :
    Headed H ρ e' := by
  unfold Enc.step at he
  have ho := origin_output e
  have hb := origin_buffer e
  cases hr : e.origin with
  | mk e1 o =>
    rw [hr] at he ho hb
    dsimp only at ho hb
    have h1 : Headed H ρ e1 := headed_same h ho hb
    cases o with
    | none => cases he; exact headed_same h1 rfl rfl
    | some p =>
      dsimp only at he
      cases ht : e1.tokenizeWhitespace p cur.start with
      | error x => rw [ht] at he; cases he
      | ok e2 => rw [ht] at he; cases he; exact headed_same (headed_tokenize h1 ht) rfl rfl

theorem headed_push {e : Enc ι E} (h : Headed H ρ e) (s : Str) : Headed H ρ (e.pushStr s) := by
  rcases h with h | ⟨h1, h2⟩
  · exact Or.inl h
  · exact Or.inr ⟨h1, by simp [Enc.pushStr, h2]⟩

theorem headed_ast {e : Enc ι E} (h : Headed H ρ e) (a : Ast ι E) : Headed H ρ (e.encodeAst a) := by
  cases a with
  | tree s => exact headed_push h s
  | literal s => exact headed_push h s
  | delimiterOpen d => exact headed_push h _
  | delimiterClose d => exact headed_push h _
  | string b ss =>
    have h1 : Headed H ρ { e with requirements := e.requirements || b } := headed_same h rfl rfl
    exact headed_of _ h1 rfl
  | quoted s => exact headed_of _ h rfl
  | control k => cases k <;> exact headed_of _ h rfl
  | eval x => exact headed_of _ h rfl
  | scope b x =>
    cases b with
    | true => exact headed_of _ h rfl
    | false =>
      rcases h with h | ⟨h1, h2⟩
      · exact Or.inl (firmly_more h _)
      · refine Or.inr ⟨?_, h2⟩
        show runBlock H ρ (e.output ++ _) = []
        rw [runBlock_append, h1]
        simp [runBlock, runStmt]
  | loop p i j s => cases j <;> exact headed_of _ h rfl
  | condition c t f => cases f <;> exact headed_of _ h rfl
  | select x as => exact headed_of _ h rfl
  | bind p x => exact headed_of _ h rfl

theorem headed_encode {e e' : Enc ι E} {cur : Cur} {a : Ast ι E} (h : Headed H ρ e)
    (he : e.encode cur a = .ok e') : Headed H ρ e' := by
  unfold Enc.encode at he
  obtain ⟨e1, h1, h2⟩ := ok_bind (x := e.step cur) (f := fun e => .ok (e.encodeAst a)) he
  cases h2
  exact headed_ast (headed_step h h1) a

mutual

theorem headed_nodes : (ns : List (Node E)) → ∀ e e' : Enc ι E, Headed H ρ e → nodes e ns = .ok e' → Headed H ρ e'
  | [], e, e', h, hn => by cases hn; exact h
  | n :: ns, e, e', h, hn => by
    obtain ⟨e1, h1, h2⟩ := ok_bind (x := node e n) (f := fun e => nodes e ns) hn
    exact headed_nodes ns e1 e' (headed_node n e e1 h h1) h2

theorem headed_node : (n : Node E) → ∀ e e' : Enc ι E, Headed H ρ e → node e n = .ok e' → Headed H ρ e'
  | .tree cur text, e, e', h, hn => headed_encode h hn
  | .escape cur, e, e', h, hn => headed_encode h hn
  | .str cur paren ps, e, e', h, hn => by
    obtain ⟨⟨s, r⟩, h1, h2⟩ := ok_bind hn
    obtain ⟨s', h2, h3⟩ := ok_bind h2
    exact headed_encode (e := { e with requirements := e.requirements || r }) (headed_same h rfl rfl) h3
  | .control cur k, e, e', h, hn => headed_encode h hn
  | .quoted cur s, e, e', h, hn => headed_encode h hn
  | .literal cur s, e, e', h, hn => headed_encode h hn
  | .eval cur x, e, e', h, hn => headed_encode h hn
  | .scope cur bound content, e, e', h, hn => headed_encode h hn
  | .loop cur pat iter body, e, e', h, hn => by
    obtain ⟨e1, h1, h2⟩ := ok_bind hn
    obtain ⟨⟨r, ss⟩, h2, h3⟩ := ok_bind h2
    exact headed_encode (e := { e with requirements := e.requirements || r }) (headed_same h rfl rfl) h3
  | .joined cur pat iter paren sep body, e, e', h, hn => by
    obtain ⟨e1, h1, h2⟩ := ok_bind hn
    obtain ⟨⟨r, ss⟩, h2, h3⟩ := ok_bind h2
    obtain ⟨e2, h4, h5⟩ := ok_bind h3
    obtain ⟨⟨r', ss'⟩, h5, h6⟩ := ok_bind h5
    exact headed_encode (e := { e with requirements := e.requirements || (r || r') }) (headed_same h rfl rfl) h6
  | .ifThen cur c t, e, e', h, hn => by
    obtain ⟨e1, h1, h2⟩ := ok_bind hn
    obtain ⟨⟨r, ss⟩, h2, h3⟩ := ok_bind h2
    exact headed_encode (e := { e with requirements := e.requirements || r }) (headed_same h rfl rfl) h3
  | .ifElse cur c t f, e, e', h, hn => by
    obtain ⟨e1, h1, h2⟩ := ok_bind hn
    obtain ⟨⟨r, ss⟩, h2, h3⟩ := ok_bind h2
    obtain ⟨e2, h4, h5⟩ := ok_bind h3
    obtain ⟨⟨r', ss'⟩, h5, h6⟩ := ok_bind h5
    exact headed_encode (e := { e with requirements := e.requirements || (r || r') }) (headed_same h rfl rfl) h6
  | .select cur x as, e, e', h, hn => by
    obtain ⟨⟨r, out⟩, h1, h2⟩ := ok_bind hn
    exact headed_encode (e := { e with requirements := e.requirements || r }) (headed_same h rfl rfl) h2
  | .bind cur pat x, e, e', h, hn => headed_encode h hn
  | .group cur d content, e, e', h, hn => by
    obtain ⟨e1, h1, h2⟩ := ok_bind hn
    obtain ⟨e2, h2, h3⟩ := ok_bind h2
    exact headed_encode (headed_nodes content e1 e2 (headed_encode h h1) h2) h3

end

theorem headed_into {e : Enc ι E} {r : Bool} {ss : List (Stmt ι E)} (h : Headed H ρ e)
    (he : e.intoOutput = .ok (r, ss)) : Firmly (runBlock H ρ ss) := by
  unfold Enc.intoOutput at he
  cases hs : e.spanEnd with
  | none => rw [hs] at he; cases he; exact firmly_more (headed_flush h) _
  | some to =>
    rw [hs] at he
    dsimp only at he
    rw [origin_spanEnd] at he
    have ho := origin_output e
    have hb := origin_buffer e
    cases hr : e.origin with
    | mk e1 o =>
      rw [hr] at he ho hb
      dsimp only at ho hb
      have h1 : Headed H ρ { e1 with spanEnd := none } := headed_same h ho hb
      cases o with
      | none => cases he; exact firmly_more (headed_flush h1) _
      | some p =>
        dsimp only at he
        cases ht : Enc.tokenizeWhitespace { e1 with spanEnd := none } p to with
        | error x => rw [ht] at he; cases he
        | ok e2 => rw [ht] at he; cases he; exact firmly_more (headed_flush (headed_tokenize h1 ht)) _

theorem headed_first (n : Node E) (h : Opens H ρ n) (e : Enc ι E) (hn : node (startEnc none) n = .ok e) :
    Headed H ρ e := by
  have buf : ∀ {e' : Enc ι E}, e'.output = [] → e'.itemBuffer ≠ [] → Headed H ρ e' :=
    fun h1 h2 => Or.inr ⟨by rw [h1]; rfl, h2⟩
  have out : ∀ {e' : Enc ι E} {s : Stmt ι E} {ss : List (Stmt ι E)}, e'.output = s :: ss →
      Firmly (runStmt H ρ s).2 → Headed H ρ e' :=
    fun h1 h2 => Or.inl (by rw [h1, runBlock]; exact Firmly.append h2 _)
  cases n with
  | tree cur s => cases hn; exact buf rfl h
  | literal cur s => cases hn; exact buf rfl h
  | escape cur => cases hn; exact buf rfl (by simp [Enc.encodeAst, Enc.pushStr])
  | quoted cur s => cases hn; exact out rfl ⟨.openQuote false, rfl, rfl⟩
  | str cur paren ps =>
    obtain ⟨⟨s, r⟩, h1, h2⟩ := ok_bind hn
    obtain ⟨s', h2, h3⟩ := ok_bind h2
    cases h3
    exact out rfl ⟨.openQuote s'.hasEval, rfl, rfl⟩
  | eval cur x => cases hn; exact out rfl h
  | scope cur b x =>
    obtain ⟨rfl, h⟩ := h
    cases hn; exact out rfl h
  | group cur d content =>
    obtain ⟨e1, h1, h2⟩ := ok_bind (x := Enc.encode (startEnc none) cur.firstCharacter (.delimiterOpen d))
      (f := fun e => (nodes e content).bind (fun e => e.encode cur.lastCharacter (.delimiterClose d))) hn
    obtain ⟨e2, h2, h3⟩ := ok_bind h2
    refine headed_encode (headed_nodes content e1 e2 ?_ h2) h3
    cases h1
    exact buf rfl (by simp [Enc.encodeAst, Enc.pushStr])
  | control | loop | joined | ifThen | ifElse | select | bind => cases h

/-- A macro whose first node is no whitespace starts with no whitespace. -/
theorem quote_firmly (n : Node E) (ns : List (Node E)) (h : Opens H ρ n) (r : Bool) (ss : List (Stmt ι E))
    (hq : quote none (n :: ns) = .ok (r, ss)) : Firmly (runBlock H ρ ss) := by
  obtain ⟨e, h1, h2⟩ := ok_bind (x := nodes (startEnc none) (n :: ns)) (f := Enc.intoOutput) hq
  obtain ⟨e1, h3, h4⟩ := ok_bind (x := node (startEnc none) n) (f := fun e => nodes e ns) h1
  exact headed_into (headed_nodes ns e1 e (headed_first n h e1 h3) h4) h2

end

/-! ## Languages without interpolation -/

/-- Nothing is interpolated. -/
def Still (l : List (Item ι)) : Prop := ∀ i ∈ l, evalItem i = false

theorem still_history {cs : List (Call ι)} (h : ∀ c ∈ cs, ¬ EvalCall c) : Still (history cs).items := by
  intro i hi
  have hc := Props.C05_content cs
  cases hw : isWs i with
  | true => cases i <;> first | rfl | cases hw
  | false =>
    have hm : erase i ∈ content cs := by
      rw [← hc]
      exact List.mem_map.2 ⟨i, List.mem_filter.2 ⟨hi, by simp [hw]⟩, rfl⟩
    obtain ⟨j, hj, he⟩ := List.mem_map.1 hm
    obtain ⟨c, hc, hj⟩ := List.mem_flatMap.1 (List.mem_filter.1 hj).1
    have := h c hc
    have e1 : evalItem i = evalItem j := by
      have : ∀ k : Item ι, evalItem k = evalItem (erase k) := by intro k; cases k <;> rfl
      rw [this i, this j, he]
    rw [e1]
    cases hb : evalItem j with
    | false => rfl
    | true => exact absurd ⟨j, hj, hb⟩ this

theorem resolve_still {L L' : Lang ι} (hL : SameButEval L L') (cfg : Config) (fuel : Nat) :
    ∀ (b : Bool) (st : List Frame) (items : List (Item ι)), Still items → (∀ f ∈ st, f.hasEval = false) →
    resolve L cfg fuel b st items = resolve L' cfg fuel b st items ∧
      ∀ r, (resolve L cfg fuel b st items).2 = some r → Still r := by
  induction fuel with
  | zero =>
    intro b st items hi _
    exact ⟨rfl, fun r hr => by cases hr; exact hi⟩
  | succ fuel ih =>
    intro b st items hi hst
    cases items with
    | nil => exact ⟨rfl, fun r hr => by cases hr; exact hi⟩
    | cons i rest =>
      have hrest : Still rest := fun j hj => hi j (List.mem_cons_of_mem _ hj)
      have hi0 := hi i List.mem_cons_self
      cases st with
      | nil => exact ⟨rfl, fun r hr => by cases hr; exact hrest⟩
      | cons f st =>
        have go := ih b (f :: st) rest hrest hst
        have pr : ∀ (acts : List Act) {st' : List Frame} {rest' : List (Item ι)},
            (resolve L cfg fuel b st' rest' = resolve L' cfg fuel b st' rest' ∧
              ∀ r, (resolve L cfg fuel b st' rest').2 = some r → Still r) →
            pre acts (resolve L cfg fuel b st' rest') = pre acts (resolve L' cfg fuel b st' rest') ∧
              ∀ r, (pre acts (resolve L cfg fuel b st' rest')).2 = some r → Still r :=
          fun acts _ _ h => ⟨by rw [h.1], fun r hr => h.2 r hr⟩
        cases i with
        | register => exact go
        | literal s =>
          simp only [resolve, hL.writeQuoted]
          exact pr _ go
        | openQuote e =>
          have he : e = false := hi0
          subst he
          simp only [resolve, hL.openQuote, hL.closeQuote, hL.writeQuoted, Bool.not_false, if_true]
          split
          · exact pr _ (ih b _ rest hrest (by
              intro g hg
              rcases List.mem_cons.1 hg with rfl | hg
              · rfl
              · exact hst g (List.mem_cons_of_mem _ hg)))
          · obtain ⟨h1, h2⟩ := ih true [Frame.default] rest hrest (by simp [Frame.default])
            rw [← h1]
            cases hr : (resolve L cfg fuel true [Frame.default] rest).2 with
            | none => exact ⟨rfl, fun r h => by cases h⟩
            | some rest' => exact pr _ (ih b _ rest' (h2 rest' hr) hst)
        | closeQuote =>
          have hf : f.hasEval = false := hst f List.mem_cons_self
          simp only [resolve, hf, hL.closeQuote]
          split
          · exact ⟨rfl, fun r h => by cases h; exact hrest⟩
          · split
            · exact pr _ (ih b _ rest hrest (by
                intro g hg
                rcases List.mem_cons.1 hg with rfl | hg
                · rfl
                · exact hst g (List.mem_cons_of_mem _ hg)))
            · exact ⟨rfl, fun r h => by cases h⟩
        | lang o x =>
          simp only [resolve, hL.langItem]
          exact pr _ go
        | push => exact pr _ go
        | line => exact pr _ go
        | space => exact pr _ go
        | indentation n =>
          simp only [resolve]
          split
          · exact go
          · exact pr _ go
        | openEval => cases hi0
        | closeEval => cases hi0

/-- Streams without interpolation are rendered alike by languages that differ in interpolation
only. -/
theorem toString_still {L L' : Lang ι} (hL : SameButEval L L') (cfg : Config) (items : List (Item ι))
    (h : Still items) : toString L cfg items = toString L' cfg items := by
  rw [toString_eq, toString_eq]
  unfold resolveItems
  rw [(resolve_still hL cfg items.length false [Frame.default] items h (by simp [Frame.default])).1]

end Genco.Macro
