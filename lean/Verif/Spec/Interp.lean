import Verif.Spec.Strings
import Verif.Spec.Layout

/-!
# Strings with evaluations, as the compiler of the output reads them

A reader of Dart and JavaScript source that keeps track of strings, evaluations inside strings
(`${…}`, in Dart also `$name`), strings inside evaluations, and so on. It knows nothing of the
streams the source was rendered from. Comments, single-quoted strings and regular expressions are
not covered: their quotes make it give up.
-/

set_option autoImplicit false

namespace Genco.Spec

variable {ι : Type}

/-- What the reader reports. -/
inductive Sign
  /-- A character of code that is not whitespace. -/
  | code (c : Char)
  /-- A string begins. -/
  | opens
  /-- A code unit of the value of the string we are in. -/
  | unit (n : Nat)
  /-- An evaluation begins in the string we are in. -/
  | enter
  /-- The evaluation ends and the string goes on. -/
  | leave
  /-- The string ends. -/
  | closes
  deriving DecidableEq, Repr

/-- What the reader is inside of: an evaluation with so many open braces, or a string that ends with
a given character. -/
inductive Inside
  | eval (depth : Nat)
  | str (delim : Char)
  deriving DecidableEq, Repr

/-- The parts of a language that matter here. -/
structure Dialect where
  /-- The delimiter of strings without (`false`) and with (`true`) evaluations. -/
  delim : Bool → Char
  /-- All characters that begin a literal in code. -/
  quotes : List Char
  /-- Whether strings with this delimiter can have evaluations. -/
  evals : Char → Bool
  /-- Whether `$name` is an evaluation. -/
  short : Bool
  /-- One element of the text of a string with this delimiter. -/
  units : Char → Reader Nat
  /-- The texts that the language can keep in a string with this delimiter, when nothing but
  evaluations and the end of the string come next. -/
  good : Char → Str → Bool

/-- A letter or an underscore. -/
def nameStart (c : Char) : Bool := c.isAlpha || c = '_'

/-- A letter, a digit or an underscore. -/
def namePart (c : Char) : Bool := c.isAlphanum || c = '_'

/-- A name without dollar signs (Dart Language Specification, `IDENTIFIER_NO_DOLLAR`). -/
def isName : Str → Bool
  | [] => false
  | c :: r => nameStart c && r.all namePart

/-- The characters of a text of code. -/
def codes (s : Str) : List Sign := (s.filter fun c => !c.isWhitespace).map .code

/-- One character of code, inside of `ms`. -/
def Dialect.readCode (D : Dialect) (ms : List Inside) (c : Char) : Option (List Sign × List Inside) :=
  if c = D.delim true ∨ c = D.delim false then some ([.opens], .str c :: ms)
  else if c ∈ D.quotes then none
  else some (codes [c], ms)

/-- One element of the source. -/
def Dialect.read (D : Dialect) : List Inside → Str → Option (List Sign × List Inside × Str)
  | _, [] => none
  | [], c :: r => (D.readCode [] c).map fun (o, ms) => (o, ms, r)
  | .eval n :: ms, c :: r =>
    if c = '{' then some ([.code c], .eval (n + 1) :: ms, r)
    else if c = '}' then
      match n with
      | 0 => some ([.leave], ms, r)
      | n + 1 => some ([.code c], .eval n :: ms, r)
    else (D.readCode (.eval n :: ms) c).map fun (o, ms) => (o, ms, r)
  | .str d :: ms, c :: r =>
    if c = d then some ([.closes], ms, r)
    else if D.evals d = true ∧ c = '$' ∧ r.head? = some '{' then
      some ([.enter], .eval 0 :: .str d :: ms, r.drop 1)
    else if D.short = true ∧ c = '$' then
      if (r.head?.any nameStart) = true then
        some (.enter :: (r.takeWhile namePart).map .code ++ [.leave], .str d :: ms, r.dropWhile namePart)
      else none
    else (D.units d (c :: r)).map fun (u, r) => (u.map .unit, .str d :: ms, r)

/-- Read a whole source, from outside of all strings to outside of all strings. `fuel` bounds the
number of elements. -/
def Dialect.readAll (D : Dialect) : Nat → List Inside → Str → Option (List Sign)
  | _, [], [] => some []
  | _, _ :: _, [] => none
  | 0, _, _ :: _ => none
  | fuel + 1, ms, c :: s =>
    match D.read ms (c :: s) with
    | none => none
    | some (o, ms', r) => (D.readAll fuel ms' r).map (o ++ ·)

/-- What a source means. -/
def Dialect.meaning (D : Dialect) (s : Str) : Option (List Sign) := D.readAll s.length [] s

/-- Text that a string of JavaScript can keep: neither U+0011 nor U+0012, no NUL before a digit, and
in a template (`tmpl`) neither a backtick nor `${`. -/
def jsGood (tmpl : Bool) : Str → Bool
  | [] => true
  | c :: r =>
    decide (c ≠ '\x11') && decide (c ≠ '\x12') &&
    !(decide (c = '\x00') && r.head?.any Char.isDigit) &&
    (!tmpl || (decide (c ≠ '`') && !(decide (c = '$') && decide (r.head? = some '{')))) &&
    jsGood tmpl r

/-- JavaScript: `"…"`, and `` `…` `` with evaluations `${…}`. -/
def jsDialect : Dialect where
  delim e := if e then '`' else '"'
  quotes := ['"', '\'', '`']
  evals d := d = '`'
  short := false
  units d := if d = '`' then templateReader else jsReader
  good d := jsGood (d = '`')

/-- Dart: `"…"` with evaluations `${…}` and `$name`. -/
def dartDialect : Dialect where
  delim _ := '"'
  quotes := ['"', '\'']
  evals _ := true
  short := true
  units _ := dartReader
  good _ t := t.all fun c => decide (c ≠ '\x11') && decide (c ≠ '\x12')

/-! ## What is meant by a stream -/

/-- The open braces after a text of code; `none` if it closes more than there are. -/
def braces : Nat → Str → Option Nat
  | n, [] => some n
  | n, '{' :: r => braces (n + 1) r
  | 0, '}' :: _ => none
  | n + 1, '}' :: r => braces n r
  | n, _ :: r => braces n r

/-- A text of code, inside of `ms`: no quotes of its own, and in an evaluation no braces that would
end it. -/
def Dialect.fits (D : Dialect) (s : Str) : List Inside → Option (List Inside)
  | .eval n :: ms => if s.all (· ∉ D.quotes) then (braces n s).map fun n => .eval n :: ms else none
  | ms => if s.all (· ∉ D.quotes) then some ms else none

/-- The first character of the text that follows. -/
def follows : List (Item ι) → Option Char
  | .literal s :: r => if s.text = [] then follows r else s.text.head?
  | .register _ _ :: r => follows r
  | _ => none

/-- The code units of a text. -/
def unitsOf (t : Str) : List Sign := (t.flatMap utf16).map .unit

/-- Where `$name` is an evaluation and one literal is to be evaluated, it is a name that the text
behind it does not prolong. -/
def Dialect.apart (D : Dialect) : List (Item ι) → Bool
  | .literal s :: .closeEval :: r => !D.short || (isName s.text && !(follows r).any namePart)
  | _ => true

/-- What is meant by a stream: its code, its strings, their texts and their evaluations, to any
depth. `ms` is what we are inside of, `t` the text of the string we are in since its start or the last
evaluation. `none` for streams the theorem is not about:

* code with quotes of its own, or braces that do not match in an evaluation;
* whitespace, strings and language items directly in a string;
* evaluations in strings that were not opened for them;
* texts that are not `good` in the language;
* where `$name` is an evaluation, an evaluation of one literal that is not a name or that is followed
  by text that would prolong the name (`apart`). -/
def Dialect.signs (D : Dialect) (f : ι → List Str) : List Inside → Str → List (Item ι) → Option (List Sign)
  | [], _, [] => some []
  | _ :: _, _, [] => none
  | .str d :: ms, t, i :: r =>
    match i with
    | .literal s => D.signs f (.str d :: ms) (t ++ s.text) r
    | .register _ _ => D.signs f (.str d :: ms) t r
    | .closeQuote => if D.good d t then (D.signs f ms [] r).map (unitsOf t ++ .closes :: ·) else none
    | .openEval =>
      if D.good d t && D.evals d && D.apart r then
        (D.signs f (.eval 0 :: .str d :: ms) [] r).map (unitsOf t ++ .enter :: ·)
      else none
    | _ => none
  | ms, _, i :: r =>
    match i with
    | .openQuote e => (D.signs f (.str (D.delim e) :: ms) [] r).map (.opens :: ·)
    | .closeEval =>
      match ms with
      | .eval 0 :: ms' => (D.signs f ms' [] r).map (.leave :: ·)
      | _ => none
    | .literal s => (D.fits s.text ms).bind fun ms => (D.signs f ms [] r).map (codes s.text ++ ·)
    | .lang _ i =>
      (D.fits (f i).flatten ms).bind fun ms => (D.signs f ms [] r).map (codes (f i).flatten ++ ·)
    | .register _ _ => D.signs f ms [] r
    | .push => D.signs f ms [] r
    | .line => D.signs f ms [] r
    | .space => D.signs f ms [] r
    | .indentation _ => D.signs f ms [] r
    | _ => none

/-- What is meant by a stream, whatever texts the language can keep and however it writes an
evaluation of one literal. -/
def Dialect.meant (D : Dialect) (f : ι → List Str) (items : List (Item ι)) : Option (List Sign) :=
  Dialect.signs { D with short := false, good := fun _ _ => true } f [] [] items

end Genco.Spec
