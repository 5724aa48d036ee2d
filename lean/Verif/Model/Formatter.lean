import Verif.Model.Tokens

/-!
# The formatter and its writers

Mirrors `src/fmt/formatter.rs`, `src/fmt/cursor.rs`, `src/fmt/config.rs`,
`src/fmt/mod.rs` and the three writers.

A computation that can fail returns `Except s s`: the error carries the state at
the moment of failure, so that partial output can be talked about.
-/

set_option autoImplicit false

namespace Genco

variable {ι σ : Type}

/-- `fmt::Indentation`, src/fmt/config.rs 33-39. -/
inductive Indentation where
  | space (n : Nat)
  | tab
  deriving DecidableEq, Repr

/-- `fmt::Config`, src/fmt/config.rs 42-48. -/
structure Config where
  indentation : Indentation
  newline : Str
  deriving DecidableEq, Repr

/-- `fmt::Write` (src/fmt/mod.rs 71-80) together with `core::fmt::Write`: a
writer with state `σ` whose calls may fail. -/
structure Writer (σ : Type) where
  writeStr : Str → σ → Except σ σ
  writeLine : Config → σ → Except σ σ
  writeTrailingLine : Config → σ → Except σ σ

/-- `FmtWriter<String>`, src/fmt/fmt_writer.rs 62-85. Writing to a `String`
never fails; the trailing line is the default one (src/fmt/mod.rs 77-79). -/
def stringWriter : Writer Str where
  writeStr s o := .ok (o ++ s)
  writeLine cfg o := .ok (o ++ cfg.newline)
  writeTrailingLine cfg o := .ok (o ++ cfg.newline)

/-- `VecWriter`, src/fmt/vec_writer.rs 44-47: finished lines and line buffer. -/
structure VecState where
  lineBuffer : Str
  target : List Str
  deriving DecidableEq, Repr

/-- `VecWriter`, src/fmt/vec_writer.rs 67-91. -/
def vecWriter : Writer VecState where
  writeStr s o := .ok { o with lineBuffer := o.lineBuffer ++ s }
  writeLine _ o := .ok { lineBuffer := [], target := o.target ++ [o.lineBuffer] }
  writeTrailingLine _ o := .ok o

/-- `VecWriter::new`, src/fmt/vec_writer.rs 51-53. -/
def VecState.new : VecState := ⟨[], []⟩

/-- `VecWriter::into_vec`, src/fmt/vec_writer.rs 61-64. -/
def VecState.intoVec (v : VecState) : List Str := v.target ++ [v.lineBuffer]

/-- UTF-8 encoding of a text, `str::as_bytes`. -/
def utf8 (s : Str) : List UInt8 := s.flatMap String.utf8EncodeChar

/-- `IoWriter`, src/fmt/io_writer.rs 64-93, over an `io::Write` given by its
`write_all`. -/
def ioWriter (writeAll : List UInt8 → σ → Except σ σ) : Writer σ where
  writeStr s o := writeAll (utf8 s) o
  writeLine cfg o := writeAll (utf8 cfg.newline) o
  writeTrailingLine cfg o := writeAll (utf8 cfg.newline) o

/-- `FmtWriter<W>`, src/fmt/fmt_writer.rs 62-85, over a `core::fmt::Write` given
by its `write_str`. -/
def fmtWriter (writeStr : Str → σ → Except σ σ) : Writer σ where
  writeStr s o := writeStr s o
  writeLine cfg o := writeStr cfg.newline o
  writeTrailingLine cfg o := writeStr cfg.newline o

/-- `Whitespace`, src/fmt/formatter.rs 18-23. -/
inductive Whitespace where
  | initial
  | none
  | push
  | line
  deriving DecidableEq, Repr

/-- `Whitespace::into_indent`, src/fmt/formatter.rs 30-37. -/
def Whitespace.intoIndent : Whitespace → Option Nat
  | .initial => some 0
  | .push => some 1
  | .line => some 2
  | .none => Option.none

/-- `Formatter`, src/fmt/formatter.rs 48-63, without the references to the
writer functions and the configuration, which are passed separately. `out` is
the state of the writer. -/
structure Fmt (σ : Type) where
  line : Whitespace
  spaces : Nat
  indent : Int
  out : σ
  deriving DecidableEq, Repr

/-- The callbacks of a `Lang` implementation (src/lang/mod.rs 51-134) for fixed
`config` and `format`. Each is the list of strings it passes to
`Formatter::write_str`, in order; the built-in implementations do nothing else
with the formatter. `langItem` is `LangItem::format`. -/
structure Lang (ι : Type) where
  openQuote : Bool → List Str
  closeQuote : Bool → List Str
  writeQuoted : Str → List Str
  startEval : List Str
  endEval : List Str
  evalLiteral : Str → List Str
  langItem : ι → List Str

/-- `SPACES`, src/fmt/formatter.rs 12. -/
def SPACES : Str := List.replicate 100 ' '

/-- `TABS`, src/fmt/formatter.rs 14-15. -/
def TABS : Str := List.replicate 40 '\t'

/-- The chunk loops of `flush_whitespace`, src/fmt/formatter.rs 291-295 and
300-304: write `n` characters of `buf` in pieces of at most its length. `fuel`
bounds the iterations; each writes at least one character. -/
def writeRun (W : Writer σ) (buf : Str) : Nat → Nat → σ → Except σ σ
  | 0, _, o => .ok o
  | fuel + 1, n, o =>
    if n > 0 then do
      let len := min n buf.length
      let o ← W.writeStr (buf.take len) o
      writeRun W buf fuel (n - len) o
    else .ok o

/-- The `for _ in 0..lines` loop, src/fmt/formatter.rs 278-280. -/
def writeLines (W : Writer σ) (cfg : Config) : Nat → σ → Except σ σ
  | 0, o => .ok o
  | n + 1, o => do
    let o ← W.writeLine cfg o
    writeLines W cfg n o

namespace Fmt

/-- Run a writer call inside the formatter. -/
def lift (f : Fmt σ) (r : Except σ σ) : Except (Fmt σ) (Fmt σ) :=
  match r with
  | .ok o => .ok { f with out := o }
  | .error o => .error { f with out := o }

/-- `Formatter::new`, src/fmt/formatter.rs 67-75. -/
def new (o : σ) : Fmt σ := ⟨.initial, 0, 0, o⟩

/-- `Formatter::flush_whitespace`, src/fmt/formatter.rs 274-307. -/
def flushWhitespace (W : Writer σ) (cfg : Config) (f : Fmt σ) : Except (Fmt σ) (Fmt σ) :=
  let spaces := f.spaces
  let pending := f.line
  let f := { f with spaces := 0, line := .none }
  f.lift <|
    match pending.intoIndent with
    | some lines => do
      let o ← writeLines W cfg lines f.out
      let level := (max f.indent 0).toNat
      match cfg.indentation with
      | .space n => writeRun W SPACES (spaces + level * n) (spaces + level * n) o
      | .tab => do
        let o ← writeRun W TABS level level o
        writeRun W SPACES spaces spaces o
    | Option.none => writeRun W SPACES spaces spaces f.out

/-- `Formatter::write_str`, src/fmt/formatter.rs 102-109. -/
def writeStr (W : Writer σ) (cfg : Config) (f : Fmt σ) (s : Str) : Except (Fmt σ) (Fmt σ) :=
  if s ≠ [] then do
    let f ← f.flushWhitespace W cfg
    f.lift (W.writeStr s f.out)
  else .ok f

/-- A sequence of `write_str` calls with `?` after each. -/
def writeAll (W : Writer σ) (cfg : Config) : List Str → Fmt σ → Except (Fmt σ) (Fmt σ)
  | [], f => .ok f
  | s :: ss, f => do
    let f ← f.writeStr W cfg s
    writeAll W cfg ss f

/-- `Formatter::push`, src/fmt/formatter.rs 111-119. -/
def push (f : Fmt σ) : Fmt σ :=
  match f.line with
  | .initial => f
  | .line => f
  | _ => { f with line := .push, spaces := 0 }

/-- `Formatter::line`, src/fmt/formatter.rs 122-129. -/
def pushLine (f : Fmt σ) : Fmt σ :=
  match f.line with
  | .initial => f
  | _ => { f with line := .line, spaces := 0 }

/-- `Formatter::space`, src/fmt/formatter.rs 132-134. -/
def space (f : Fmt σ) : Fmt σ := { f with spaces := f.spaces + 1 }

/-- `Formatter::indentation`, src/fmt/formatter.rs 137-140 (unbounded). -/
def indentation (f : Fmt σ) (n : Int) : Fmt σ :=
  let f := f.push
  { f with indent := f.indent + n }

/-- `Formatter::write_trailing_line`, src/fmt/formatter.rs 94-99. -/
def writeTrailingLine (W : Writer σ) (cfg : Config) (f : Fmt σ) : Except (Fmt σ) (Fmt σ) :=
  let f := { f with line := .none, spaces := 0 }
  f.lift (W.writeTrailingLine cfg f.out)

end Fmt

/-- `Frame`, src/fmt/formatter.rs 243-248. -/
structure Frame where
  inQuote : Bool
  hasEval : Bool
  endOnEval : Bool
  deriving DecidableEq, Repr

/-- `Frame::default()`. -/
def Frame.default : Frame := ⟨false, false, false⟩

/-- The loop of `Formatter::format_cursor`, src/fmt/formatter.rs 160-241, with
`quoted_quote` (252-270) and the cursor look-ahead (src/fmt/cursor.rs 21-118) in line.
Returns the formatter and the remaining cursor. `fuel` must be at least the
number of items; each step consumes one or more. -/
def formatCursor (L : Lang ι) (cfg : Config) :
    Nat → {σ : Type} → Writer σ → Bool → List Frame → List (Item ι) → Fmt σ →
      Except (Fmt σ) (Fmt σ × List (Item ι))
  | 0, _, _, _, _, items, f => .ok (f, items)
  | fuel + 1, _, W, endOnClose, stack, items, f =>
    match items with
    | [] => .ok (f, [])
    | item :: rest =>
      match stack with
      | [] => .ok (f, rest)
      | head :: stack' =>
        let go := formatCursor L cfg fuel W endOnClose
        match item with
        | .register _ _ => go stack rest f
        | .literal s => do
          let f ← if head.inQuote then f.writeAll W cfg (L.writeQuoted s.text)
            else f.writeStr W cfg s.text
          go stack rest f
        | .openQuote e =>
          if !head.inQuote then do
            let f ← f.writeAll W cfg (L.openQuote e)
            go ({ head with hasEval := e, inQuote := true } :: stack') rest f
          else if !e then
            match (Fmt.new ([] : Str)).writeAll stringWriter cfg (L.openQuote false) with
            | .error _ => .error f
            | .ok inner =>
              match formatCursor L cfg fuel stringWriter true [Frame.default] rest inner with
              | .error _ => .error f
              | .ok (inner, rest') =>
                match inner.writeAll stringWriter cfg (L.closeQuote false) with
                | .error _ => .error f
                | .ok inner => do
                  let f ← f.writeAll W cfg (L.writeQuoted inner.out)
                  go stack rest' f
          else .error f
        | .closeQuote =>
          if endOnClose then .ok (f, rest)
          else if head.inQuote then do
            let f ← f.writeAll W cfg (L.closeQuote head.hasEval)
            go ({ head with inQuote := false, hasEval := false } :: stack') rest f
          else .error f
        | .lang _ i => do
          let f ← f.writeAll W cfg (L.langItem i)
          go stack rest f
        | .push => go stack rest f.push
        | .line => go stack rest f.pushLine
        | .space => go stack rest f.space
        | .indentation n => if n = 0 then go stack rest f else go stack rest (f.indentation n)
        | .openEval =>
          if head.inQuote then
            match rest with
            | .literal s :: .closeEval :: rest' => do
              let f ← f.writeAll W cfg (L.evalLiteral s.text)
              go stack rest' f
            | _ => do
              let f ← f.writeAll W cfg L.startEval
              go (⟨false, false, true⟩ :: stack) rest f
          else .error f
        | .closeEval =>
          if head.endOnEval then do
            let f ← f.writeAll W cfg L.endEval
            go stack' rest f
          else .error f

/-- `Formatter::format_items`, src/fmt/formatter.rs 78-89, which is also
`Tokens::format` (src/tokens/tokens.rs 545-553). -/
def formatItems (L : Lang ι) (cfg : Config) (W : Writer σ) (items : List (Item ι)) (f : Fmt σ) :
    Except (Fmt σ) (Fmt σ) :=
  match formatCursor L cfg items.length W false [Frame.default] items f with
  | .ok (f, _) => .ok f
  | .error f => .error f

/-- Formatting several streams one after the other with the same formatter, as
the `format_file` implementations do (header, then body), e.g.
src/lang/rust.rs 91-103. -/
def formatStreams (L : Lang ι) (cfg : Config) (W : Writer σ) :
    List (List (Item ι)) → Fmt σ → Except (Fmt σ) (Fmt σ)
  | [], f => .ok f
  | s :: ss, f => do
    let f ← formatItems L cfg W s f
    formatStreams L cfg W ss f

/-- `Tokens::format_file`, src/tokens/tokens.rs 638-642, for a language whose
`format_file` formats the given streams. -/
def formatFile (L : Lang ι) (cfg : Config) (W : Writer σ) (streams : List (List (Item ι)))
    (f : Fmt σ) : Except (Fmt σ) (Fmt σ) := do
  let f ← formatStreams L cfg W streams f
  f.writeTrailingLine W cfg

/-- Drop the state carried by an error: what a caller sees of a failed
`to_string`. -/
def okOf {α β : Type} (g : α → β) : Except α α → Option β
  | .ok a => some (g a)
  | .error _ => none

/-- `Tokens::to_string`, src/tokens/tokens.rs 751-759. -/
def toString (L : Lang ι) (cfg : Config) (items : List (Item ι)) : Option Str :=
  okOf Fmt.out (formatItems L cfg stringWriter items (Fmt.new []))

/-- `Tokens::to_vec`, src/tokens/tokens.rs 856-864. -/
def toVec (L : Lang ι) (cfg : Config) (items : List (Item ι)) : Option (List Str) :=
  okOf (fun f => f.out.intoVec) (formatItems L cfg vecWriter items (Fmt.new VecState.new))

/-- `Tokens::to_file_string`, src/tokens/tokens.rs 716-722. -/
def toFileString (L : Lang ι) (cfg : Config) (streams : List (List (Item ι))) : Option Str :=
  okOf Fmt.out (formatFile L cfg stringWriter streams (Fmt.new []))

/-- `Tokens::to_file_vec`, src/tokens/tokens.rs 818-825. -/
def toFileVec (L : Lang ι) (cfg : Config) (streams : List (List (Item ι))) :
    Option (List Str) :=
  okOf (fun f => f.out.intoVec) (formatFile L cfg vecWriter streams (Fmt.new VecState.new))

end Genco
