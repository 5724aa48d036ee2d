import Verif.Model.Formatter

/-!
# 16-bit indentation counters

The operations that do arithmetic on `i16` indentation counters, with overflow
made visible: `none` stands for an arithmetic overflow (a panic in debug builds,
wrap-around in release builds). Everything else is as in `Verif.Model.Tokens`
and `Verif.Model.Formatter`.
-/

set_option autoImplicit false

namespace Genco

variable {ι σ : Type}

/-- The range of `i16`. -/
def inI16 (n : Int) : Bool := -32768 ≤ n && n ≤ 32767

/-- `a + b` on `i16`. -/
def addI16 (a b : Int) : Option Int := if inI16 (a + b) then some (a + b) else none

namespace Tokens

/-- The loop of `Tokens::indentation`, src/tokens/tokens.rs 645-662, where
`n += u` is checked. -/
def indentationRevC (n : Int) : List (Item ι) → Option (List (Item ι))
  | .push :: r => indentationRevC n r
  | .space :: r => indentationRevC n r
  | .line :: r => indentationRevC n r
  | .indentation u :: r => (addI16 n u).bind (fun n => indentationRevC n r)
  | r => some (if n ≠ 0 then .indentation n :: r else r)

/-- `Tokens::indentation`, src/tokens/tokens.rs 645-662, checked. -/
def indentationC (t : Tokens ι) (n : Int) : Option (Tokens ι) :=
  (indentationRevC n t.rev).map (fun r => { t with rev := r })

/-- `Tokens::item`, src/tokens/tokens.rs 572-582, checked. -/
def itemC (t : Tokens ι) : Item ι → Option (Tokens ι)
  | .indentation n => t.indentationC n
  | i => some (t.item i)

/-- `Tokens::extend`, src/tokens/tokens.rs 201-212, checked. -/
def extendC (t : Tokens ι) (it : List (Item ι)) : Option (Tokens ι) := it.foldlM itemC t

end Tokens

/-- One public call, checked. -/
def Call.runC (t : Tokens ι) : Call ι → Option (Tokens ι)
  | .append i => t.itemC i
  | .indent => t.indentationC 1
  | .unindent => t.indentationC (-1)
  | .stream it => t.extendC it
  | c => some (c.run t)

/-- A history of calls, checked. -/
def historyC (cs : List (Call ι)) : Option (Tokens ι) := cs.foldlM Call.runC Tokens.new

/-- `Formatter::indentation`, src/fmt/formatter.rs 137-140, checked. -/
def Fmt.indentationC (f : Fmt σ) (n : Int) : Option (Fmt σ) :=
  (addI16 f.push.indent n).map (fun k => { f.push with indent := k })

/-- `Formatter::format_cursor`, src/fmt/formatter.rs 160-241, as `formatCursor`
but with the checked counter. -/
def formatCursorC (L : Lang ι) (cfg : Config) :
    Nat → {σ : Type} → Writer σ → Bool → List Frame → List (Item ι) → Fmt σ →
      Option (Except (Fmt σ) (Fmt σ × List (Item ι)))
  | 0, _, _, _, _, items, f => some (.ok (f, items))
  | fuel + 1, _, W, endOnClose, stack, items, f =>
    match items with
    | [] => some (.ok (f, []))
    | item :: rest =>
      match stack with
      | [] => some (.ok (f, rest))
      | head :: stack' =>
        let go := formatCursorC L cfg fuel W endOnClose
        let after (r : Except (Fmt _) (Fmt _)) (k : Fmt _ → Option (Except (Fmt _) (Fmt _ × List (Item ι)))) :=
          match r with
          | .error f => some (.error f)
          | .ok f => k f
        match item with
        | .register _ _ => go stack rest f
        | .literal s =>
          after (if head.inQuote then f.writeAll W cfg (L.writeQuoted s.text)
            else f.writeStr W cfg s.text) (go stack rest)
        | .openQuote e =>
          if !head.inQuote then
            after (f.writeAll W cfg (L.openQuote e))
              (go ({ head with hasEval := e, inQuote := true } :: stack') rest)
          else if !e then
            match (Fmt.new ([] : Str)).writeAll stringWriter cfg (L.openQuote false) with
            | .error _ => some (.error f)
            | .ok inner =>
              match formatCursorC L cfg fuel stringWriter true [Frame.default] rest inner with
              | none => none
              | some (.error _) => some (.error f)
              | some (.ok (inner, rest')) =>
                match inner.writeAll stringWriter cfg (L.closeQuote false) with
                | .error _ => some (.error f)
                | .ok inner =>
                  after (f.writeAll W cfg (L.writeQuoted inner.out)) (go stack rest')
          else some (.error f)
        | .closeQuote =>
          if endOnClose then some (.ok (f, rest))
          else if head.inQuote then
            after (f.writeAll W cfg (L.closeQuote head.hasEval))
              (go ({ head with inQuote := false, hasEval := false } :: stack') rest)
          else some (.error f)
        | .lang _ i => after (f.writeAll W cfg (L.langItem i)) (go stack rest)
        | .push => go stack rest f.push
        | .line => go stack rest f.pushLine
        | .space => go stack rest f.space
        | .indentation n =>
          if n = 0 then go stack rest f
          else (f.indentationC n).bind (go stack rest)
        | .openEval =>
          if head.inQuote then
            match rest with
            | .literal s :: .closeEval :: rest' =>
              after (f.writeAll W cfg (L.evalLiteral s.text)) (go stack rest')
            | _ =>
              after (f.writeAll W cfg L.startEval) (go (⟨false, false, true⟩ :: stack) rest)
          else some (.error f)
        | .closeEval =>
          if head.endOnEval then
            after (f.writeAll W cfg L.endEval) (go stack' rest)
          else some (.error f)

/-- `Formatter::format_items`, src/fmt/formatter.rs 78-89, checked. -/
def formatItemsC (L : Lang ι) (cfg : Config) (W : Writer σ) (items : List (Item ι)) (f : Fmt σ) :
    Option (Except (Fmt σ) (Fmt σ)) :=
  (formatCursorC L cfg items.length W false [Frame.default] items f).map fun r =>
    match r with
    | .ok (f, _) => .ok f
    | .error f => .error f

end Genco
