import Verif.Model.Formatter

/-!
# Counters of type `usize`

The operations of the formatter that do arithmetic on `usize`: counting the spaces
that are asked for (src/fmt/formatter.rs 133) and working out the width of the
indentation (286). The arithmetic is a parameter, so that one model covers debug
builds (overflow is a panic, `none`) and release builds (the result wraps around).
Everything else is as in `Verif.Model.Formatter`; the loops that write a run of
spaces only subtract what they have written (291-295, 300-304).
-/

set_option autoImplicit false

namespace Genco

variable {ι σ : Type}

/-- Addition and multiplication of a numeric type; `none` is a panic. -/
structure Arith where
  add : Nat → Nat → Option Nat
  mul : Nat → Nat → Option Nat

/-- Arithmetic that panics if the result is more than `M`: `usize` with largest value
`M` in a debug build. -/
def Arith.checked (M : Nat) : Arith where
  add a b := if a + b ≤ M then some (a + b) else none
  mul a b := if a * b ≤ M then some (a * b) else none

/-- Arithmetic that wraps around behind `M`: `usize` with largest value `M` in a
release build. -/
def Arith.wrapping (M : Nat) : Arith where
  add a b := some ((a + b) % (M + 1))
  mul a b := some (a * b % (M + 1))

namespace Fmt

/-- `Formatter::flush_whitespace`, src/fmt/formatter.rs 274-307, where `level * n` and
`spaces += …` (286) are those of `A`. -/
def flushWhitespaceA (A : Arith) (W : Writer σ) (cfg : Config) (f : Fmt σ) :
    Option (Except (Fmt σ) (Fmt σ)) :=
  let spaces := f.spaces
  let pending := f.line
  let f := { f with spaces := 0, line := .none }
  match pending.intoIndent with
  | some lines =>
    match writeLines W cfg lines f.out with
    | .error o => some (.error { f with out := o })
    | .ok o =>
      let level := (max f.indent 0).toNat
      match cfg.indentation with
      | .space n =>
        (A.mul level n).bind fun width => (A.add spaces width).map fun k =>
          f.lift (writeRun W SPACES k k o)
      | .tab => some <| f.lift do
        let o ← writeRun W TABS level level o
        writeRun W SPACES spaces spaces o
  | Option.none => some (f.lift (writeRun W SPACES spaces spaces f.out))

/-- `Formatter::write_str`, src/fmt/formatter.rs 102-109. -/
def writeStrA (A : Arith) (W : Writer σ) (cfg : Config) (f : Fmt σ) (s : Str) :
    Option (Except (Fmt σ) (Fmt σ)) :=
  if s ≠ [] then
    (f.flushWhitespaceA A W cfg).map fun r =>
      match r with
      | .error f => .error f
      | .ok f => f.lift (W.writeStr s f.out)
  else some (.ok f)

/-- A sequence of `write_str` calls with `?` after each. -/
def writeAllA (A : Arith) (W : Writer σ) (cfg : Config) : List Str → Fmt σ →
    Option (Except (Fmt σ) (Fmt σ))
  | [], f => some (.ok f)
  | s :: ss, f => (f.writeStrA A W cfg s).bind fun r =>
    match r with
    | .error f => some (.error f)
    | .ok f => writeAllA A W cfg ss f

/-- `Formatter::space`, src/fmt/formatter.rs 132-134, where `+= 1` is that of `A`. -/
def spaceA (A : Arith) (f : Fmt σ) : Option (Fmt σ) :=
  (A.add f.spaces 1).map fun n => { f with spaces := n }

end Fmt

/-- `Formatter::format_cursor`, src/fmt/formatter.rs 160-241, as `formatCursor`
but with the arithmetic of `A`. -/
def formatCursorA (A : Arith) (L : Lang ι) (cfg : Config) :
    Nat → {σ : Type} → Writer σ → Bool → List Frame → List (Item ι) → Fmt σ →
      Option (Except (Fmt σ) (Fmt σ × List (Item ι)))
  | 0, _, _, _, _, items, f => some (.ok (f, items))
  | fuel + 1, _, W, endOnClose, stack, items, f =>
    match items with
    | [] => some (.ok (f, []))
    | item :: rest =>
      match stack with
      | [] => some (.ok (f, rest))
      | head :: stack' =>
        let go := formatCursorA A L cfg fuel W endOnClose
        let after (r : Option (Except (Fmt _) (Fmt _)))
            (k : Fmt _ → Option (Except (Fmt _) (Fmt _ × List (Item ι)))) :=
          match r with
          | none => none
          | some (.error f) => some (.error f)
          | some (.ok f) => k f
        match item with
        | .register _ _ => go stack rest f
        | .literal s =>
          after (if head.inQuote then f.writeAllA A W cfg (L.writeQuoted s.text)
            else f.writeStrA A W cfg s.text) (go stack rest)
        | .openQuote e =>
          if !head.inQuote then
            after (f.writeAllA A W cfg (L.openQuote e))
              (go ({ head with hasEval := e, inQuote := true } :: stack') rest)
          else if !e then
            match (Fmt.new ([] : Str)).writeAllA A stringWriter cfg (L.openQuote false) with
            | none => none
            | some (.error _) => some (.error f)
            | some (.ok inner) =>
              match formatCursorA A L cfg fuel stringWriter true [Frame.default] rest inner with
              | none => none
              | some (.error _) => some (.error f)
              | some (.ok (inner, rest')) =>
                match inner.writeAllA A stringWriter cfg (L.closeQuote false) with
                | none => none
                | some (.error _) => some (.error f)
                | some (.ok inner) =>
                  after (f.writeAllA A W cfg (L.writeQuoted inner.out)) (go stack rest')
          else some (.error f)
        | .closeQuote =>
          if endOnClose then some (.ok (f, rest))
          else if head.inQuote then
            after (f.writeAllA A W cfg (L.closeQuote head.hasEval))
              (go ({ head with inQuote := false, hasEval := false } :: stack') rest)
          else some (.error f)
        | .lang _ i => after (f.writeAllA A W cfg (L.langItem i)) (go stack rest)
        | .push => go stack rest f.push
        | .line => go stack rest f.pushLine
        | .space => (f.spaceA A).bind (go stack rest)
        | .indentation n =>
          if n = 0 then go stack rest f
          else go stack rest (f.indentation n)
        | .openEval =>
          if head.inQuote then
            match rest with
            | .literal s :: .closeEval :: rest' =>
              after (f.writeAllA A W cfg (L.evalLiteral s.text)) (go stack rest')
            | _ =>
              after (f.writeAllA A W cfg L.startEval) (go (⟨false, false, true⟩ :: stack) rest)
          else some (.error f)
        | .closeEval =>
          if head.endOnEval then
            after (f.writeAllA A W cfg L.endEval) (go stack' rest)
          else some (.error f)

/-- `Formatter::format_items`, src/fmt/formatter.rs 78-89, with the arithmetic of `A`. -/
def formatItemsA (A : Arith) (L : Lang ι) (cfg : Config) (W : Writer σ) (items : List (Item ι)) (f : Fmt σ) :
    Option (Except (Fmt σ) (Fmt σ)) :=
  (formatCursorA A L cfg items.length W false [Frame.default] items f).map fun r =>
    match r with
    | .ok (f, _) => .ok f
    | .error f => .error f

/-- `Tokens::to_string`, src/tokens/tokens.rs 751-759, with the arithmetic of `A`. -/
def toStringA (A : Arith) (L : Lang ι) (cfg : Config) (items : List (Item ι)) : Option (Option Str) :=
  (formatItemsA A L cfg stringWriter items (Fmt.new [])).map (okOf Fmt.out)

end Genco
