import Verif.Model.Formatter
import Verif.Spec.Layout

/-!
# The formatter in two stages

`resolve` turns items into actions (texts and whitespace requests) without
looking at the writer; `actsEv` turns actions into writer events. Running the
formatter on any writer is replaying those events (`formatCursor_eq`).
-/

set_option autoImplicit false

namespace Genco

open Spec

variable {ι σ : Type}

/-- A call to the writer. -/
inductive Ev where
  | str (s : Str)
  | line
  /-- The trailing line at the end of a file. -/
  | trail
  deriving DecidableEq, Repr

/-- The whitespace state of the formatter. -/
structure LSt where
  line : Whitespace
  spaces : Nat
  indent : Int
  deriving DecidableEq, Repr

/-- The whitespace state of a new formatter. -/
def LSt.new : LSt := ⟨.initial, 0, 0⟩

/-- Whitespace state of a formatter. -/
def Fmt.st (f : Fmt σ) : LSt := ⟨f.line, f.spaces, f.indent⟩

/-- Formatter from its whitespace state and writer state. -/
def LSt.mk' (s : LSt) (o : σ) : Fmt σ := ⟨s.line, s.spaces, s.indent, o⟩

/-- One event sent to a writer. -/
def Ev.call (W : Writer σ) (cfg : Config) : Ev → σ → Except σ σ
  | .str s, o => W.writeStr s o
  | .line, o => W.writeLine cfg o
  | .trail, o => W.writeTrailingLine cfg o

/-- Send events to a writer, stopping at the first failure. -/
def replay (W : Writer σ) (cfg : Config) : List Ev → σ → Except σ σ
  | [], o => .ok o
  | e :: r, o => (e.call W cfg o).bind (replay W cfg r)

theorem replay_append (W : Writer σ) (cfg : Config) (a b : List Ev) (o : σ) :
    replay W cfg (a ++ b) o = (replay W cfg a o).bind (replay W cfg b) := by
  induction a generalizing o with
  | nil => rfl
  | cons e a ih =>
    simp only [List.cons_append, replay]
    cases e.call W cfg o with
    | ok o => exact ih o
    | error o => rfl

/-- The pieces written by the chunk loops. -/
def chunks (buf : Str) : Nat → Nat → List Str
  | 0, _ => []
  | fuel + 1, n =>
    if n > 0 then buf.take (min n buf.length) :: chunks buf fuel (n - min n buf.length) else []

theorem writeRun_eq (W : Writer σ) (cfg : Config) (buf : Str) (fuel n : Nat) (o : σ) :
    writeRun W buf fuel n o = replay W cfg ((chunks buf fuel n).map .str) o := by
  induction fuel generalizing n o with
  | zero => rfl
  | succ fuel ih =>
    simp only [writeRun, chunks]
    split
    · simp only [List.map_cons, replay, Ev.call, bind]
      cases W.writeStr (buf.take (min n buf.length)) o with
      | ok o => exact ih _ _
      | error o => rfl
    · rfl

theorem writeLines_eq (W : Writer σ) (cfg : Config) (n : Nat) (o : σ) :
    writeLines W cfg n o = replay W cfg (List.replicate n .line) o := by
  induction n generalizing o with
  | zero => rfl
  | succ n ih =>
    simp only [writeLines, List.replicate_succ, replay, Ev.call, bind]
    cases W.writeLine cfg o with
    | ok o => exact ih o
    | error o => rfl

/-- Events of `flush_whitespace`. -/
def flushEv (cfg : Config) (st : LSt) : List Ev :=
  match st.line.intoIndent with
  | some lines =>
    List.replicate lines .line ++
    match cfg.indentation with
    | .space n =>
      (chunks SPACES (st.spaces + (max st.indent 0).toNat * n)
        (st.spaces + (max st.indent 0).toNat * n)).map .str
    | .tab =>
      (chunks TABS (max st.indent 0).toNat (max st.indent 0).toNat).map .str ++
        (chunks SPACES st.spaces st.spaces).map .str
  | none => (chunks SPACES st.spaces st.spaces).map .str

/-- Whitespace state after a flush. -/
def LSt.flushed (st : LSt) : LSt := ⟨.none, 0, st.indent⟩

theorem flush_eq (W : Writer σ) (cfg : Config) (f : Fmt σ) :
    f.flushWhitespace W cfg =
      match replay W cfg (flushEv cfg f.st) f.out with
      | .ok o => .ok (f.st.flushed.mk' o)
      | .error o => .error (f.st.flushed.mk' o) := by
  unfold Fmt.flushWhitespace flushEv
  simp only [Fmt.st]
  cases f.line.intoIndent with
  | none =>
    simp only [writeRun_eq W cfg, Fmt.lift]
    split <;> rename_i h <;> simp_all [LSt.flushed, LSt.mk']
  | some lines =>
    simp only [bind, writeLines_eq, replay_append, writeRun_eq W cfg, Fmt.lift]
    cases replay W cfg (List.replicate lines Ev.line) f.out with
    | error o => simp [Except.bind, LSt.flushed, LSt.mk']
    | ok o =>
      cases cfg.indentation with
      | space n =>
        simp only [Except.bind]
        split <;> rename_i h <;> simp_all [LSt.flushed, LSt.mk']
      | tab =>
        simp only [Except.bind, replay_append]
        cases replay W cfg ((chunks TABS (max f.indent 0).toNat (max f.indent 0).toNat).map .str) o with
        | error o => simp [LSt.flushed, LSt.mk']
        | ok o =>
          simp only
          split <;> rename_i h <;> simp_all [LSt.flushed, LSt.mk']

/-- Events of one action. -/
def actEv (cfg : Config) (st : LSt) : Act → List Ev
  | .text s => if s ≠ [] then flushEv cfg st ++ [.str s] else []
  | _ => []

/-- Whitespace state after one action. -/
def actSt (st : LSt) : Act → LSt
  | .text s => if s ≠ [] then st.flushed else st
  | .push =>
    match st.line with
    | .initial => st
    | .line => st
    | _ => { st with line := .push, spaces := 0 }
  | .line =>
    match st.line with
    | .initial => st
    | _ => { st with line := .line, spaces := 0 }
  | .space => { st with spaces := st.spaces + 1 }
  | .indent n =>
    match st.line with
    | .initial => { st with indent := st.indent + n }
    | .line => { st with indent := st.indent + n }
    | _ => { st with line := .push, spaces := 0, indent := st.indent + n }

/-- Events of a list of actions. -/
def actsEv (cfg : Config) : LSt → List Act → List Ev
  | _, [] => []
  | st, a :: r => actEv cfg st a ++ actsEv cfg (actSt st a) r

/-- Whitespace state after a list of actions. -/
def actsSt : LSt → List Act → LSt
  | st, [] => st
  | st, a :: r => actsSt (actSt st a) r

theorem actsEv_append (cfg : Config) (st : LSt) (a b : List Act) :
    actsEv cfg st (a ++ b) = actsEv cfg st a ++ actsEv cfg (actsSt st a) b := by
  induction a generalizing st with
  | nil => rfl
  | cons x a ih => simp [actsEv, actsSt, ih]

theorem actsSt_append (st : LSt) (a b : List Act) :
    actsSt st (a ++ b) = actsSt (actsSt st a) b := by
  induction a generalizing st with
  | nil => rfl
  | cons x a ih => simp [actsSt, ih]

/-- Texts as actions. -/
def texts (ss : List Str) : List Act := ss.map .text

/-- The text of events, for a given newline. -/
def evText (nl : Str) : List Ev → Str
  | [] => []
  | .str s :: r => s ++ evText nl r
  | .line :: r => nl ++ evText nl r
  | .trail :: r => nl ++ evText nl r

theorem evText_append (nl : Str) (a b : List Ev) : evText nl (a ++ b) = evText nl a ++ evText nl b := by
  induction a with
  | nil => rfl
  | cons e a ih => cases e <;> simp [evText, ih]

/-- What actions render to from a new formatter, as text. -/
def renderActs (cfg : Config) (acts : List Act) : Str := evText cfg.newline (actsEv cfg .new acts)

/-- Prepend actions to a resolution. -/
def pre {α : Type} (a : List Act) (r : List Act × Option α) : List Act × Option α := (a ++ r.1, r.2)

/-- The item stage: what `format_cursor` asks of the layout stage, and the
remaining cursor (or `none` for an error). -/
def resolve (L : Lang ι) (cfg : Config) :
    Nat → Bool → List Frame → List (Item ι) → List Act × Option (List (Item ι))
  | 0, _, _, items => ([], some items)
  | fuel + 1, endOnClose, stack, items =>
    match items with
    | [] => ([], some [])
    | item :: rest =>
      match stack with
      | [] => ([], some rest)
      | head :: stack' =>
        let go := resolve L cfg fuel endOnClose
        match item with
        | .register _ _ => go stack rest
        | .literal s =>
          pre (if head.inQuote then texts (L.writeQuoted s.text) else [.text s.text]) (go stack rest)
        | .openQuote e =>
          if !head.inQuote then
            pre (texts (L.openQuote e))
              (go ({ head with hasEval := e, inQuote := true } :: stack') rest)
          else if !e then
            let r := resolve L cfg fuel true [Frame.default] rest
            match r.2 with
            | none => ([], none)
            | some rest' =>
              pre (texts (L.writeQuoted (renderActs cfg
                  (texts (L.openQuote false) ++ r.1 ++ texts (L.closeQuote false)))))
                (go stack rest')
          else ([], none)
        | .closeQuote =>
          if endOnClose then ([], some rest)
          else if head.inQuote then
            pre (texts (L.closeQuote head.hasEval))
              (go ({ head with inQuote := false, hasEval := false } :: stack') rest)
          else ([], none)
        | .lang _ i => pre (texts (L.langItem i)) (go stack rest)
        | .push => pre [.push] (go stack rest)
        | .line => pre [.line] (go stack rest)
        | .space => pre [.space] (go stack rest)
        | .indentation n => if n = 0 then go stack rest else pre [.indent n] (go stack rest)
        | .openEval =>
          if head.inQuote then
            match rest with
            | .literal s :: .closeEval :: rest' => pre (texts (L.evalLiteral s.text)) (go stack rest')
            | _ => pre (texts L.startEval) (go (⟨false, false, true⟩ :: stack) rest)
          else ([], none)
        | .closeEval =>
          if head.endOnEval then pre (texts L.endEval) (go stack' rest)
          else ([], none)

/-- Result of running a resolution on a writer. -/
def runRes {α : Type} (W : Writer σ) (cfg : Config) (r : List Act × Option α) (f : Fmt σ) :
    Except σ (Fmt σ × α) :=
  match replay W cfg (actsEv cfg f.st r.1) f.out with
  | .error o => .error o
  | .ok o =>
    match r.2 with
    | none => .error o
    | some a => .ok ((actsSt f.st r.1).mk' o, a)

/-- A formatter result with only the writer state kept in errors. -/
def view {α : Type} : Except (Fmt σ) α → Except σ α
  | .ok a => .ok a
  | .error f => .error f.out

@[simp] theorem mk'_st (f : Fmt σ) : f.st.mk' f.out = f := rfl
@[simp] theorem st_mk' (s : LSt) (o : σ) : (s.mk' o).st = s := rfl
@[simp] theorem out_mk' (s : LSt) (o : σ) : (s.mk' o).out = o := rfl

/-- Result of running actions. -/
def runActs (W : Writer σ) (cfg : Config) (acts : List Act) (f : Fmt σ) : Except σ (Fmt σ) :=
  match replay W cfg (actsEv cfg f.st acts) f.out with
  | .error o => .error o
  | .ok o => .ok ((actsSt f.st acts).mk' o)

theorem runRes_pre {α : Type} (W : Writer σ) (cfg : Config) (a : List Act)
    (r : List Act × Option α) (f : Fmt σ) :
    runRes W cfg (pre a r) f = (runActs W cfg a f).bind (runRes W cfg r) := by
  simp only [runRes, pre, runActs, actsEv_append, replay_append, actsSt_append]
  cases replay W cfg (actsEv cfg f.st a) f.out with
  | error o => rfl
  | ok o => simp [Except.bind, runRes]

theorem writeStr_eq (W : Writer σ) (cfg : Config) (f : Fmt σ) (s : Str) :
    view (f.writeStr W cfg s) = runActs W cfg [.text s] f := by
  unfold Fmt.writeStr runActs
  simp only [actsEv, actEv, actsSt, actSt, List.append_nil]
  split
  · simp only [bind, flush_eq, replay_append]
    cases replay W cfg (flushEv cfg f.st) f.out with
    | error o => rfl
    | ok o =>
      simp only [Except.bind, Fmt.lift, out_mk', replay, Ev.call]
      cases W.writeStr s o <;> rfl
  · rfl

theorem runActs_append (W : Writer σ) (cfg : Config) (a b : List Act) (f : Fmt σ) :
    runActs W cfg (a ++ b) f = (runActs W cfg a f).bind (runActs W cfg b) := by
  simp only [runActs, actsEv_append, replay_append, actsSt_append]
  cases replay W cfg (actsEv cfg f.st a) f.out with
  | error o => rfl
  | ok o => simp [Except.bind, runActs]

theorem view_bind {α β : Type} (r : Except (Fmt σ) α) (g : α → Except (Fmt σ) β) :
    view (r >>= g) = (view r).bind (fun a => view (g a)) := by
  cases r <;> rfl

theorem runActs_nil (W : Writer σ) (cfg : Config) (f : Fmt σ) : runActs W cfg [] f = .ok f := rfl

theorem writeAll_eq (W : Writer σ) (cfg : Config) (ss : List Str) (f : Fmt σ) :
    view (f.writeAll W cfg ss) = runActs W cfg (texts ss) f := by
  induction ss generalizing f with
  | nil => rfl
  | cons s ss ih =>
    have : texts (s :: ss) = [.text s] ++ texts ss := rfl
    rw [this, runActs_append, ← writeStr_eq]
    simp only [Fmt.writeAll, view_bind]
    congr 1
    funext f
    exact ih f

theorem replay_string (cfg : Config) (evs : List Ev) (o : Str) :
    replay stringWriter cfg evs o = .ok (o ++ evText cfg.newline evs) := by
  induction evs generalizing o with
  | nil => simp [replay, evText]
  | cons e r ih =>
    cases e with
    | str s =>
      have : replay stringWriter cfg (.str s :: r) o = replay stringWriter cfg r (o ++ s) := rfl
      simp [this, ih, evText]
    | line =>
      have : replay stringWriter cfg (.line :: r) o =
        replay stringWriter cfg r (o ++ cfg.newline) := rfl
      simp [this, ih, evText]
    | trail =>
      have : replay stringWriter cfg (.trail :: r) o =
        replay stringWriter cfg r (o ++ cfg.newline) := rfl
      simp [this, ih, evText]

theorem runActs_string (cfg : Config) (acts : List Act) (f : Fmt Str) :
    runActs stringWriter cfg acts f =
      .ok ((actsSt f.st acts).mk' (f.out ++ evText cfg.newline (actsEv cfg f.st acts))) := by
  simp [runActs, replay_string]

theorem view_ok_of {α : Type} {r : Except (Fmt Str) α} {a : α} (h : view r = .ok a) : r = .ok a := by
  cases r <;> simp_all [view]

theorem push_eq (W : Writer σ) (cfg : Config) (f : Fmt σ) :
    runActs W cfg [.push] f = .ok f.push := by
  obtain ⟨l, s, i, o⟩ := f
  cases l <;> rfl

theorem pushLine_eq (W : Writer σ) (cfg : Config) (f : Fmt σ) :
    runActs W cfg [.line] f = .ok f.pushLine := by
  obtain ⟨l, s, i, o⟩ := f
  cases l <;> rfl

theorem space_eq (W : Writer σ) (cfg : Config) (f : Fmt σ) :
    runActs W cfg [.space] f = .ok f.space := rfl

theorem indentation_eq (W : Writer σ) (cfg : Config) (f : Fmt σ) (n : Int) :
    runActs W cfg [.indent n] f = .ok (f.indentation n) := by
  obtain ⟨l, s, i, o⟩ := f
  cases l <;> rfl

/-- The formatter on any writer is the replay of the events of its actions. -/
theorem formatCursor_eq (L : Lang ι) (cfg : Config) (fuel : Nat) :
    ∀ {σ : Type} (W : Writer σ) (e : Bool) (stack : List Frame) (items : List (Item ι)) (f : Fmt σ),
      view (formatCursor L cfg fuel W e stack items f) =
        runRes W cfg (resolve L cfg fuel e stack items) f := by
  induction fuel with
  | zero => intros; rfl
  | succ fuel ih =>
    intro σ W e stack items f
    cases items with
    | nil => rfl
    | cons item rest =>
      cases stack with
      | nil => rfl
      | cons head stack' =>
        simp only [formatCursor, resolve]
        cases item with
        | register p i => exact ih ..
        | literal s =>
          simp only [runRes_pre]
          cases head.inQuote with
          | true => simp only [if_true, view_bind, writeAll_eq, ih]
          | false => simp only [Bool.false_eq_true, if_false, view_bind, writeStr_eq, ih]
        | lang p i => simp only [runRes_pre, view_bind, writeAll_eq, ih]
        | push => simp only [runRes_pre, push_eq, ih, Except.bind]
        | line => simp only [runRes_pre, pushLine_eq, ih, Except.bind]
        | space => simp only [runRes_pre, space_eq, ih, Except.bind]
        | indentation n =>
          simp only
          split
          · exact ih ..
          · simp only [runRes_pre, indentation_eq, ih, Except.bind]
        | closeQuote =>
          simp only
          split
          · rfl
          · split
            · simp only [runRes_pre, view_bind, writeAll_eq, ih]
            · rfl
        | closeEval =>
          simp only
          split
          · simp only [runRes_pre, view_bind, writeAll_eq, ih]
          · rfl
        | openEval =>
          simp only
          split
          · split
            · simp only [runRes_pre, view_bind, writeAll_eq, ih]
            · simp only [runRes_pre, view_bind, writeAll_eq, ih]
          · rfl
        | openQuote ev =>
          simp only
          split
          · simp only [runRes_pre, view_bind, writeAll_eq, ih]
          · split
            · have h1 := writeAll_eq stringWriter cfg (L.openQuote false) (Fmt.new ([] : Str))
              rw [runActs_string] at h1
              have h1' := view_ok_of h1
              rw [h1']
              simp only
              have h2 := ih stringWriter true [Frame.default] rest
                ((actsSt (Fmt.new ([] : Str)).st (texts (L.openQuote false))).mk'
                  ((Fmt.new ([] : Str)).out ++ evText cfg.newline
                    (actsEv cfg (Fmt.new ([] : Str)).st (texts (L.openQuote false)))))
              simp only [runRes, replay_string, st_mk', out_mk'] at h2
              cases hr : (resolve L cfg fuel true [Frame.default] rest).2 with
              | none =>
                rw [hr] at h2
                simp only at h2
                cases hf : formatCursor L cfg fuel stringWriter true [Frame.default] rest
                  ((actsSt (Fmt.new ([] : Str)).st (texts (L.openQuote false))).mk'
                    ((Fmt.new ([] : Str)).out ++ evText cfg.newline
                    (actsEv cfg (Fmt.new ([] : Str)).st (texts (L.openQuote false))))) with
                | ok a => rw [hf] at h2; simp [view] at h2
                | error g => rfl
              | some rest' =>
                rw [hr] at h2
                simp only at h2
                rw [view_ok_of h2]
                simp only
                rw [view_ok_of ((writeAll_eq ..).trans (runActs_string ..))]
                simp only [runRes_pre, view_bind, writeAll_eq, ih]
                congr 4
                simp only [out_mk', st_mk', renderActs, actsEv_append, evText_append,
                  actsSt_append]
                rfl
            · rfl

/-! ## Whole streams and files -/

/-- Resolution of one stream: its actions, and whether it is well formed. -/
def resolveItems (L : Lang ι) (cfg : Config) (items : List (Item ι)) : List Act × Option Unit :=
  let r := resolve L cfg items.length false [Frame.default] items
  (r.1, r.2.map fun _ => ())

/-- Resolution of several streams, stopping at the first malformed one. -/
def resolveStreams (L : Lang ι) (cfg : Config) : List (List (Item ι)) → List Act × Option Unit
  | [] => ([], some ())
  | s :: ss =>
    let r := resolveItems L cfg s
    match r.2 with
    | none => r
    | some _ => pre r.1 (resolveStreams L cfg ss)

theorem formatItems_eq (L : Lang ι) (cfg : Config) (W : Writer σ) (items : List (Item ι))
    (f : Fmt σ) :
    view (formatItems L cfg W items f) =
      (runRes W cfg (resolveItems L cfg items) f).map Prod.fst := by
  have h := formatCursor_eq L cfg items.length W false [Frame.default] items f
  unfold formatItems
  simp only [runRes, resolveItems] at h ⊢
  cases hf : formatCursor L cfg items.length W false [Frame.default] items f with
  | ok a =>
    rw [hf] at h
    simp only [view] at h ⊢
    split at h
    · simp at h
    · rename_i o ho
      split at h
      · simp at h
      · rename_i a' ha
        simp only [Except.ok.injEq] at h
        simp [h, ha, Except.map]
  | error g =>
    rw [hf] at h
    simp only [view] at h ⊢
    split at h
    · rename_i o ho
      simp only [Except.error.injEq] at h
      simp [h, Except.map]
    · rename_i o ho
      split at h
      · rename_i ha
        simp only [Except.error.injEq] at h
        simp [h, ha, Except.map]
      · simp at h

theorem runRes_unit (W : Writer σ) (cfg : Config) (acts : List Act) (u : Unit) (f : Fmt σ) :
    (runRes W cfg (acts, some u) f).map Prod.fst = runActs W cfg acts f := by
  simp only [runRes, runActs]
  cases replay W cfg (actsEv cfg f.st acts) f.out <;> rfl

theorem formatStreams_eq (L : Lang ι) (cfg : Config) (W : Writer σ) (ss : List (List (Item ι)))
    (f : Fmt σ) :
    view (formatStreams L cfg W ss f) =
      (runRes W cfg (resolveStreams L cfg ss) f).map Prod.fst := by
  induction ss generalizing f with
  | nil => rfl
  | cons s ss ih =>
    simp only [formatStreams, view_bind, formatItems_eq, resolveStreams]
    cases h : (resolveItems L cfg s).2 with
    | none =>
      simp only [runRes, h]
      cases replay W cfg (actsEv cfg f.st (resolveItems L cfg s).1) f.out <;> rfl
    | some u =>
      have : resolveItems L cfg s = ((resolveItems L cfg s).1, some u) := by rw [← h]
      rw [this, runRes_unit]
      simp only [runRes_pre, ih]
      cases runActs W cfg (resolveItems L cfg s).1 f <;> rfl

theorem formatFile_eq (L : Lang ι) (cfg : Config) (W : Writer σ) (ss : List (List (Item ι)))
    (f : Fmt σ) :
    (view (formatFile L cfg W ss f)).map Fmt.out =
      match (resolveStreams L cfg ss).2 with
      | some _ => replay W cfg (actsEv cfg f.st (resolveStreams L cfg ss).1 ++ [.trail]) f.out
      | none =>
        match replay W cfg (actsEv cfg f.st (resolveStreams L cfg ss).1) f.out with
        | .ok o => .error o
        | .error o => .error o := by
  simp only [formatFile, view_bind, formatStreams_eq, runRes]
  cases h : (resolveStreams L cfg ss).2 with
  | none =>
    simp only
    cases replay W cfg (actsEv cfg f.st (resolveStreams L cfg ss).1) f.out <;> rfl
  | some u =>
    simp only [replay_append]
    cases replay W cfg (actsEv cfg f.st (resolveStreams L cfg ss).1) f.out with
    | error o => rfl
    | ok o =>
      simp only [Except.bind, Except.map, replay, Ev.call, Fmt.writeTrailingLine, Fmt.lift, out_mk']
      cases W.writeTrailingLine cfg o <;> rfl

theorem formatItems_out (L : Lang ι) (cfg : Config) (W : Writer σ) (items : List (Item ι))
    (f : Fmt σ) :
    (view (formatItems L cfg W items f)).map Fmt.out =
      match (resolveItems L cfg items).2 with
      | some _ => replay W cfg (actsEv cfg f.st (resolveItems L cfg items).1) f.out
      | none =>
        match replay W cfg (actsEv cfg f.st (resolveItems L cfg items).1) f.out with
        | .ok o => .error o
        | .error o => .error o := by
  simp only [formatItems_eq, runRes]
  cases h : (resolveItems L cfg items).2 with
  | none =>
    simp only
    cases replay W cfg (actsEv cfg f.st (resolveItems L cfg items).1) f.out <;> rfl
  | some u =>
    simp only
    cases replay W cfg (actsEv cfg f.st (resolveItems L cfg items).1) f.out <;> rfl

/-- `okOf` in terms of the view. -/
theorem okOf_eq {β : Type} (g : σ → β) (r : Except (Fmt σ) (Fmt σ)) :
    okOf (fun f => g f.out) r =
      match (view r).map Fmt.out with
      | .ok o => some (g o)
      | .error _ => none := by
  cases r <;> rfl

end Genco
