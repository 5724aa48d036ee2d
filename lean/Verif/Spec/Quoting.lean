import Verif.Spec.Layout

/-!
# Quotes as trees

What a properly nested stream of quote and evaluation marks means, defined on
the nesting structure, and a recogniser for the streams that are accepted.
-/

set_option autoImplicit false

namespace Genco.Spec

variable {ι : Type}

mutual
/-- Code: plain items and quoted strings. -/
inductive Code (ι : Type) where
  | nil
  | item (i : Item ι) (rest : Code ι)
  /-- A string; `e` says whether it is marked as having interpolations. -/
  | quote (e : Bool) (body : Body ι) (rest : Code ι)
/-- The inside of a string. -/
inductive Body (ι : Type) where
  | nil
  | item (i : Item ι) (rest : Body ι)
  /-- An interpolated evaluation. -/
  | eval (code : Code ι) (rest : Body ι)
  /-- A string quoted inside the string; its content is plain. -/
  | inner (items : List (Item ι)) (rest : Body ι)
end

mutual
/-- The item stream of code. -/
def Code.items : Code ι → List (Item ι)
  | .nil => []
  | .item i r => i :: r.items
  | .quote e b r => .openQuote e :: b.items ++ .closeQuote :: r.items
/-- The item stream of the inside of a string. -/
def Body.items : Body ι → List (Item ι)
  | .nil => []
  | .item i r => i :: r.items
  | .eval c r => .openEval :: c.items ++ .closeEval :: r.items
  | .inner is r => .openQuote false :: is ++ .closeQuote :: r.items
end

mutual
/-- All leaf items are plain. -/
def Code.plain : Code ι → Bool
  | .nil => true
  | .item i r => isPlain i && r.plain
  | .quote _ b r => b.plain && r.plain
/-- All leaf items are plain. -/
def Body.plain : Body ι → Bool
  | .nil => true
  | .item i r => isPlain i && r.plain
  | .eval c r => c.plain && r.plain
  | .inner is r => is.all isPlain && r.plain
end

/-- A literal that is the only content. -/
def Code.single : Code ι → Option Str
  | .item (.literal s) .nil => some s.text
  | _ => none

/-- What a plain item inside a string asks for: literals are escaped, everything
else is as outside. -/
def quotedActs (L : Lang ι) : Item ι → List Act
  | .literal s => (L.writeQuoted s.text).map .text
  | i => plainActs L.langItem i

mutual
/-- What code asks the layout for: every string between the delimiters that
belong to its kind. -/
def Code.acts (L : Lang ι) (cfg : Config) : Code ι → List Act
  | .nil => []
  | .item i r => plainActs L.langItem i ++ r.acts L cfg
  | .quote e b r =>
    (L.openQuote e).map .text ++ b.acts L cfg ++ (L.closeQuote e).map .text ++ r.acts L cfg
/-- What the inside of a string asks the layout for. -/
def Body.acts (L : Lang ι) (cfg : Config) : Body ι → List Act
  | .nil => []
  | .item i r => quotedActs L i ++ r.acts L cfg
  | .eval c r =>
    (match c.single with
      | some s => (L.evalLiteral s).map .text
      | none => L.startEval.map .text ++ c.acts L cfg ++ L.endEval.map .text) ++ r.acts L cfg
  | .inner is r =>
    (L.writeQuoted (render cfg ((L.openQuote false).map .text ++
      is.flatMap (plainActs L.langItem) ++ (L.closeQuote false).map .text))).map .text ++
      r.acts L cfg
end

mutual
/-- Strings quoted inside strings contain no line breaks or indentation. -/
def Code.flatInner : Code ι → Bool
  | .nil => true
  | .item _ r => r.flatInner
  | .quote _ b r => b.flatInner && r.flatInner
/-- Strings quoted inside strings contain no line breaks or indentation. -/
def Body.flatInner : Body ι → Bool
  | .nil => true
  | .item _ r => r.flatInner
  | .eval c r => c.flatInner && r.flatInner
  | .inner is r =>
    is.all (fun i => match i with | .push | .line | .indentation _ => false | _ => true) &&
      r.flatInner
end

/-- The texts that a stream can write, each as a whole: its literals, as they are or escaped, its
language items, the delimiters of its strings and evaluations, and strings quoted in strings, which
end with the closing delimiter. -/
inductive EmittedBy (L : Lang ι) (items : List (Item ι)) : Str → Prop
  | literal {s} : Item.literal s ∈ items → EmittedBy L items s.text
  | lang {p i} : Item.lang p i ∈ items → EmittedBy L items (L.langItem i).flatten
  | quoted {e s} : Item.openQuote e ∈ items → Item.literal s ∈ items →
    EmittedBy L items (L.writeQuoted s.text).flatten
  | inner (before : Str) : Item.openQuote false ∈ items →
    EmittedBy L items (L.writeQuoted (before ++ (L.closeQuote false).flatten)).flatten
  | openQuote {e} : Item.openQuote e ∈ items → EmittedBy L items (L.openQuote e).flatten
  | closeQuote (e) : Item.closeQuote ∈ items → EmittedBy L items (L.closeQuote e).flatten
  | startEval : Item.openEval ∈ items → EmittedBy L items L.startEval.flatten
  | endEval : Item.closeEval ∈ items → EmittedBy L items L.endEval.flatten
  | evalLiteral {s} : Item.openEval ∈ items → Item.literal s ∈ items →
    EmittedBy L items (L.evalLiteral s.text).flatten

/-- The texts of a list of requests, joined. -/
def actTexts : List Act → Str
  | [] => []
  | .text s :: r => s ++ actTexts r
  | _ :: r => actTexts r

/-! ## Accepted streams -/

/-- One level of code: are we inside a string, is it the code of an evaluation. -/
structure MFrame where
  inQuote : Bool
  isEval : Bool
  deriving DecidableEq, Repr

/-- Where we are: for each string quoted inside a string the frames opened in
it, innermost first, then the frames of the stream itself. -/
abbrev MState := List (List MFrame)

/-- One item. `none` means that the item is illegal here. -/
def markStep : MState → Item ι → Option MState
  | (f :: fs) :: ls, .openQuote e =>
    if !f.inQuote then some (({ f with inQuote := true } :: fs) :: ls)
    else if e then none
    else some ([⟨false, false⟩] :: (f :: fs) :: ls)
  | [f :: fs], .closeQuote =>
    if f.inQuote then some [{ f with inQuote := false } :: fs] else none
  | _ :: l :: ls, .closeQuote => some (l :: ls)
  | (f :: fs) :: ls, .openEval =>
    if f.inQuote then some ((⟨false, true⟩ :: f :: fs) :: ls) else none
  | (f :: fs) :: ls, .closeEval => if f.isEval then some (fs :: ls) else none
  | s, _ => some s

/-- The stream contains no illegal mark. -/
def marksOk (items : List (Item ι)) : Bool := (items.foldlM markStep [[⟨false, false⟩]]).isSome

/-- No interpolated single literal has a registration beside it: whenever the items
behind an `openEval` would, without registrations, begin with a literal and
`closeEval`, they begin with these two items as they are. -/
def Unsplit (items : List (Item ι)) : Prop :=
  ∀ before behind s q, items = before ++ .openEval :: behind →
    behind.filter (fun i => match i with | .register _ _ => false | _ => true) =
      .literal s :: .closeEval :: q →
    ∃ q', behind = .literal s :: .closeEval :: q'

end Genco.Spec
