import Verif.Model.Item

/-!
# Token streams

Mirrors `src/tokens/tokens.rs`. The item vector is stored newest item first, so
that `Vec::push` is `cons` and `Vec::pop` is pattern matching; `Tokens.items` is
the vector in its Rust order.
-/

set_option autoImplicit false

namespace Genco

variable {ι : Type}

/-- `Tokens`, src/tokens/tokens.rs 73-86. -/
structure Tokens (ι : Type) where
  /-- The `items` vector, last element first. -/
  rev : List (Item ι)
  /-- `last_lang_item`. -/
  lastLangItem : Nat
  deriving DecidableEq, Repr

namespace Tokens

/-- The `items` vector in order, as seen by `iter()`/`into_iter()`
(src/tokens/tokens.rs 146-150, 907-996). -/
def items (t : Tokens ι) : List (Item ι) := t.rev.reverse

/-- `Tokens::new`, src/tokens/tokens.rs 103-108. -/
def new : Tokens ι := ⟨[], 0⟩

/-- `Tokens::is_empty`, src/tokens/tokens.rs 275-277. -/
def isEmpty (t : Tokens ι) : Bool := t.rev.isEmpty

/-- The effect of `Tokens::space` on the item vector,
src/tokens/tokens.rs 309-315. -/
def spaceRev : List (Item ι) → List (Item ι)
  | .space :: r => .space :: r
  | r => .space :: r

/-- `Tokens::space`, src/tokens/tokens.rs 309-315. -/
def space (t : Tokens ι) : Tokens ι := { t with rev := spaceRev t.rev }

/-- The loop of `Tokens::push` and what follows it,
src/tokens/tokens.rs 347-362. -/
def pushRev : List (Item ι) → List (Item ι)
  | .line :: r => .line :: r
  | .space :: r => pushRev r
  | .push :: r => pushRev r
  | r => .push :: r

/-- `Tokens::push`, src/tokens/tokens.rs 347-362. -/
def push (t : Tokens ι) : Tokens ι := { t with rev := pushRev t.rev }

/-- The loop of `Tokens::line` and what follows it,
src/tokens/tokens.rs 395-405. -/
def lineRev : List (Item ι) → List (Item ι)
  | .line :: r => lineRev r
  | .push :: r => lineRev r
  | r => .line :: r

/-- `Tokens::line`, src/tokens/tokens.rs 395-405. -/
def line (t : Tokens ι) : Tokens ι := { t with rev := lineRev t.rev }

/-- The loop of `Tokens::indentation` and what follows it,
src/tokens/tokens.rs 645-662 (with unbounded `n`). -/
def indentationRev (n : Int) : List (Item ι) → List (Item ι)
  | .push :: r => indentationRev n r
  | .space :: r => indentationRev n r
  | .line :: r => indentationRev n r
  | .indentation u :: r => indentationRev (n + u) r
  | r => if n ≠ 0 then .indentation n :: r else r

/-- `Tokens::indentation`, src/tokens/tokens.rs 645-662. -/
def indentation (t : Tokens ι) (n : Int) : Tokens ι :=
  { t with rev := indentationRev n t.rev }

/-- `Tokens::indent`, src/tokens/tokens.rs 442-444. -/
def indent (t : Tokens ι) : Tokens ι := t.indentation 1

/-- `Tokens::unindent`, src/tokens/tokens.rs 492-494. -/
def unindent (t : Tokens ι) : Tokens ι := t.indentation (-1)

/-- `Tokens::lang_item`, src/tokens/tokens.rs 585-590. The recorded position is
the length of the vector after the push. -/
def langItem (t : Tokens ι) (i : ι) : Tokens ι :=
  ⟨.lang t.lastLangItem i :: t.rev, t.rev.length + 1⟩

/-- `Tokens::lang_item_register`, src/tokens/tokens.rs 593-598. -/
def langItemRegister (t : Tokens ι) (i : ι) : Tokens ι :=
  ⟨.register t.lastLangItem i :: t.rev, t.rev.length + 1⟩

/-- `Tokens::item`, src/tokens/tokens.rs 572-582. Also the effect of
`append(item)` for any `Item` (src/tokens/item.rs 79-86) and of
`append` of a language item (`impl_lang!`, src/macros.rs 161-172). -/
def item (t : Tokens ι) : Item ι → Tokens ι
  | .push => t.push
  | .line => t.line
  | .space => t.space
  | .indentation n => t.indentation n
  | .lang _ i => t.langItem i
  | .register _ i => t.langItemRegister i
  | .literal s => { t with rev := .literal s :: t.rev }
  | .openQuote e => { t with rev := .openQuote e :: t.rev }
  | .closeQuote => { t with rev := .closeQuote :: t.rev }
  | .openEval => { t with rev := .openEval :: t.rev }
  | .closeEval => { t with rev := .closeEval :: t.rev }

/-- `Tokens::extend`, src/tokens/tokens.rs 201-212. -/
def extend (t : Tokens ι) (it : List (Item ι)) : Tokens ι := it.foldl item t

/-- `FormatInto for Tokens` (append of a whole stream),
src/tokens/format_into.rs 54-85. -/
def appendTokens (t a : Tokens ι) : Tokens ι := t.extend a.items

/-- `FromIterator<Item>`, src/tokens/tokens.rs 998-1022. -/
def fromIter (it : List (Item ι)) : Tokens ι := (new : Tokens ι).extend it

/-- `append` of text (`FormatInto for &str/String/...`,
src/tokens/format_into.rs 190-320): one boxed literal. -/
def appendStr (t : Tokens ι) (s : Str) : Tokens ι := t.item (.literal (.box s))

/-- `static_literal`, src/tokens/static_literal.rs 12-19: one static literal. -/
def appendStatic (t : Tokens ι) (s : Str) : Tokens ι := t.item (.literal (.static s))

/-- `Tokens::register`, src/tokens/tokens.rs 259-264, for one import
(src/tokens/register.rs; `impl_lang!` src/macros.rs 162-190). -/
def register (t : Tokens ι) (i : ι) : Tokens ι := t.langItemRegister i

/-- `WalkImports::next`, src/tokens/tokens.rs 1041-1059, iterated. `fuel` bounds
the number of steps; `walkImports` supplies the vector length plus one. -/
def walkFrom (v : List (Item ι)) : Nat → Nat → List ι
  | 0, _ => []
  | fuel + 1, pos =>
    if pos = 0 then []
    else match v[pos - 1]? with
      | some (.lang prev i) => i :: walkFrom v fuel prev
      | some (.register prev i) => i :: walkFrom v fuel prev
      | _ => []

/-- `Tokens::walk_imports`, src/tokens/tokens.rs 233-238, collected. -/
def walkImports (t : Tokens ι) : List ι :=
  walkFrom t.items (t.items.length + 1) t.lastLangItem

end Tokens

/-- One public call on a token stream. `append` covers every `append` of a
single item; `stream` covers `extend`, `append` of a stream, of a vector or
slice of items and `collect`, with arbitrary items. -/
inductive Call (ι : Type) where
  | append (i : Item ι)
  | appendLang (i : ι)
  | register (i : ι)
  | space
  | push
  | line
  | indent
  | unindent
  | stream (it : List (Item ι))

/-- Perform one call. -/
def Call.run (t : Tokens ι) : Call ι → Tokens ι
  | .append i => t.item i
  | .appendLang i => t.langItem i
  | .register i => t.register i
  | .space => t.space
  | .push => t.push
  | .line => t.line
  | .indent => t.indent
  | .unindent => t.unindent
  | .stream it => t.extend it

/-- The stream after a history of calls on a new stream. -/
def history (cs : List (Call ι)) : Tokens ι := cs.foldl Call.run Tokens.new

end Genco
