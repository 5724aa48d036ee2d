import Verif.Spec.Layout

/-!
# What any stream asks the layout for

Streams need not be properly nested to be accepted: strings and evaluations may be left open. Here
is what such streams ask for, in one pass over the items, with the texts that are being laid out
kept side by side.
-/

set_option autoImplicit false

namespace Genco.Spec

variable {ι : Type}

/-- A string or an evaluation that is open: whether we are in a string, whether it is marked as having
interpolations, and whether it stands in an evaluation. -/
structure Opened where
  inQuote : Bool
  marked : Bool
  isEval : Bool
  deriving DecidableEq, Repr

/-- A text that is being laid out: what is open in it, innermost first, and what it asks for so far. -/
structure Sheet where
  opened : List Opened
  acts : List Act
  deriving DecidableEq, Repr

/-- The sheet of a stream, and of a string quoted inside a string. -/
def Sheet.blank : Sheet := ⟨[⟨false, false, false⟩], []⟩

/-- More requests. -/
def Sheet.add (s : Sheet) (a : List Act) : Sheet := { s with acts := s.acts ++ a }

/-- A string quoted inside a string is laid out between its delimiters, and the outcome is escaped as
a whole. -/
def Sheet.paste (L : Lang ι) (cfg : Config) (inner outer : Sheet) : Sheet :=
  outer.add ((L.writeQuoted (render cfg ((L.openQuote false).map .text ++ inner.acts ++
    (L.closeQuote false).map .text))).map .text)

/-- At the end of the stream: strings quoted inside strings end as well. -/
def finish (L : Lang ι) (cfg : Config) : Sheet → List Sheet → List Act
  | s, [] => s.acts
  | s, t :: ts => finish L cfg (s.paste L cfg t) ts

/-- What a stream asks for, with the sheet that is written on and those below; `none` if it is
malformed. -/
def asks (L : Lang ι) (cfg : Config) : Sheet → List Sheet → List (Item ι) → Option (List Act)
  | s, below, [] => some (finish L cfg s below)
  | ⟨[], _⟩, _, _ :: _ => none
  | ⟨f :: fs, a⟩, below, .openEval :: .literal s :: .closeEval :: r =>
    if f.inQuote then asks L cfg ⟨f :: fs, a ++ (L.evalLiteral s.text).map .text⟩ below r else none
  | ⟨f :: fs, a⟩, below, i :: r =>
    match i with
    | .openQuote e =>
      if !f.inQuote then
        asks L cfg ⟨⟨true, e, f.isEval⟩ :: fs, a ++ (L.openQuote e).map .text⟩ below r
      else if e then none
      else asks L cfg .blank (⟨f :: fs, a⟩ :: below) r
    | .closeQuote =>
      match below with
      | t :: ts => asks L cfg (Sheet.paste L cfg ⟨f :: fs, a⟩ t) ts r
      | [] =>
        if f.inQuote then
          asks L cfg ⟨⟨false, false, f.isEval⟩ :: fs, a ++ (L.closeQuote f.marked).map .text⟩ [] r
        else none
    | .openEval =>
      if f.inQuote then asks L cfg ⟨⟨false, false, true⟩ :: f :: fs, a ++ L.startEval.map .text⟩ below r
      else none
    | .closeEval =>
      if f.isEval then asks L cfg ⟨fs, a ++ L.endEval.map .text⟩ below r else none
    | .literal s =>
      asks L cfg ⟨f :: fs, a ++ (if f.inQuote then (L.writeQuoted s.text).map .text else [.text s.text])⟩ below r
    | i => asks L cfg ⟨f :: fs, a ++ plainActs L.langItem i⟩ below r

end Genco.Spec
