import Verif.Model.I16

/-!
# 16-bit indentation counters in release builds

Without overflow checks `+=` on `i16` wraps around. Everything else is as in `Verif.Model.Tokens`
and `Verif.Model.Formatter`; `Verif.Model.I16` has the same operations with overflow checks.
-/

set_option autoImplicit false

namespace Genco

variable {ι σ : Type}

/-- `a + b` on `i16`, wrapping around. -/
def addWrap (a b : Int) : Int := (a + b + 32768) % 65536 - 32768

namespace Tokens

/-- The loop of `Tokens::indentation`, src/tokens/tokens.rs 645-662, where `n += u` wraps around. -/
def indentationRevW (n : Int) : List (Item ι) → List (Item ι)
  | .push :: r => indentationRevW n r
  | .space :: r => indentationRevW n r
  | .line :: r => indentationRevW n r
  | .indentation u :: r => indentationRevW (addWrap n u) r
  | r => if n ≠ 0 then .indentation n :: r else r

/-- `Tokens::indentation`, src/tokens/tokens.rs 645-662, wrapping around. -/
def indentationW (t : Tokens ι) (n : Int) : Tokens ι := { t with rev := indentationRevW n t.rev }

/-- `Tokens::item`, src/tokens/tokens.rs 572-582, wrapping around. -/
def itemW (t : Tokens ι) : Item ι → Tokens ι
  | .indentation n => t.indentationW n
  | i => t.item i

/-- `Tokens::extend`, src/tokens/tokens.rs 201-212, wrapping around. -/
def extendW (t : Tokens ι) (it : List (Item ι)) : Tokens ι := it.foldl itemW t

end Tokens

/-- One public call, wrapping around. -/
def Call.runW (t : Tokens ι) : Call ι → Tokens ι
  | .append i => t.itemW i
  | .indent => t.indentationW 1
  | .unindent => t.indentationW (-1)
  | .stream it => t.extendW it
  | c => c.run t

/-- A history of calls, wrapping around. -/
def historyW (cs : List (Call ι)) : Tokens ι := cs.foldl Call.runW Tokens.new

/-- `Formatter::indentation`, src/fmt/formatter.rs 137-140, wrapping around. -/
def Fmt.indentationW (f : Fmt σ) (n : Int) : Fmt σ := { f.push with indent := addWrap f.push.indent n }

/-- `Formatter::format_cursor`, src/fmt/formatter.rs 160-241, as `formatCursor` but with a counter that
wraps around. -/
def formatCursorW (L : Lang ι) (cfg : Config) :
    Nat → {σ : Type} → Writer σ → Bool → List Frame → List (Item ι) → Fmt σ →
      Except (Fmt σ) (Fmt σ × List (Item ι))
  | 0, _, _, _, _, items, f => .ok (f, items)
  | fuel + 1, _, W, endOnClose, stack, items, f =>
    match items with
    | [] => .ok (f, [])
    | item :: rest =>
      match stack with
      | [] => .ok (f, rest)
      | head :: stack' =>
        let go := formatCursorW L cfg fuel W endOnClose
        match item with
        | .register _ _ => go stack rest f
        | .literal s => do
          let f ← if head.inQuote then f.writeAll W cfg (L.writeQuoted s.text)
            else f.writeStr W cfg s.text
          go stack rest f
        | .openQuote e =>
          if !head.inQuote then do
            let f ← f.writeAll W cfg (L.openQuote e)
            go ({ head with hasEval := e, inQuote := true } :: stack') rest f
          else if !e then
            match (Fmt.new ([] : Str)).writeAll stringWriter cfg (L.openQuote false) with
            | .error _ => .error f
            | .ok inner =>
              match formatCursorW L cfg fuel stringWriter true [Frame.default] rest inner with
              | .error _ => .error f
              | .ok (inner, rest') =>
                match inner.writeAll stringWriter cfg (L.closeQuote false) with
                | .error _ => .error f
                | .ok inner => do
                  let f ← f.writeAll W cfg (L.writeQuoted inner.out)
                  go stack rest' f
          else .error f
        | .closeQuote =>
          if endOnClose then .ok (f, rest)
          else if head.inQuote then do
            let f ← f.writeAll W cfg (L.closeQuote head.hasEval)
            go ({ head with inQuote := false, hasEval := false } :: stack') rest f
          else .error f
        | .lang _ i => do
          let f ← f.writeAll W cfg (L.langItem i)
          go stack rest f
        | .push => go stack rest f.push
        | .line => go stack rest f.pushLine
        | .space => go stack rest f.space
        | .indentation n => if n = 0 then go stack rest f else go stack rest (f.indentationW n)
        | .openEval =>
          if head.inQuote then
            match rest with
            | .literal s :: .closeEval :: rest' => do
              let f ← f.writeAll W cfg (L.evalLiteral s.text)
              go stack rest' f
            | _ => do
              let f ← f.writeAll W cfg L.startEval
              go (⟨false, false, true⟩ :: stack) rest f
          else .error f
        | .closeEval =>
          if head.endOnEval then do
            let f ← f.writeAll W cfg L.endEval
            go stack' rest f
          else .error f

/-- `Formatter::format_items`, src/fmt/formatter.rs 78-89, wrapping around. -/
def formatItemsW (L : Lang ι) (cfg : Config) (W : Writer σ) (items : List (Item ι)) (f : Fmt σ) :
    Except (Fmt σ) (Fmt σ) :=
  match formatCursorW L cfg items.length W false [Frame.default] items f with
  | .ok (f, _) => .ok f
  | .error f => .error f

/-- `Tokens::to_string`, src/tokens/tokens.rs 751-759, wrapping around. -/
def toStringW (L : Lang ι) (cfg : Config) (items : List (Item ι)) : Option Str :=
  okOf Fmt.out (formatItemsW L cfg stringWriter items (Fmt.new []))

end Genco
