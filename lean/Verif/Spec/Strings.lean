import Verif.Model.Item

/-!
# String literals of the target languages

Readers for the inside of a string literal, written from the reference manuals
of the target languages and independent of the library: a reader consumes one
source character or escape sequence at a time (`none` if it is not allowed) and
gives the piece of the string's value it stands for.

Values are code points for Rust, Swift and Python, UTF-16 units for Java,
JavaScript, Dart and C#, and bytes for C, Go and Nix. Deprecated forms that no
text quoted by the library can need (octal escapes, line continuations, named
characters) are not accepted.
-/

set_option autoImplicit false

namespace Genco.Spec

/-- Value of a hexadecimal digit of either case. -/
def hexVal (c : Char) : Option Nat :=
  if 48 ≤ c.toNat ∧ c.toNat ≤ 57 then some (c.toNat - 48)
  else if 97 ≤ c.toNat ∧ c.toNat ≤ 102 then some (c.toNat - 87)
  else if 65 ≤ c.toNat ∧ c.toNat ≤ 70 then some (c.toNat - 55)
  else none

/-- Read exactly `k` hexadecimal digits. -/
def hexExact : Nat → Nat → Str → Option (Nat × Str)
  | 0, acc, r => some (acc, r)
  | _ + 1, _, [] => none
  | k + 1, acc, c :: r =>
    match hexVal c with
    | some d => hexExact k (acc * 16 + d) r
    | none => none

/-- Read the longest run of at most `k` hexadecimal digits; also gives their
number. -/
def hexUpTo : Nat → Nat → Nat → Str → Nat × Nat × Str
  | 0, cnt, acc, r => (cnt, acc, r)
  | _ + 1, cnt, acc, [] => (cnt, acc, [])
  | k + 1, cnt, acc, c :: r =>
    match hexVal c with
    | some d => hexUpTo k (cnt + 1) (acc * 16 + d) r
    | none => (cnt, acc, c :: r)

/-- One to `k` hexadecimal digits and a closing brace. -/
def hexBraced (k : Nat) (s : Str) : Option (Nat × Str) :=
  match hexUpTo k 0 0 s with
  | (0, _, _) => none
  | (_ + 1, v, '}' :: r) => some (v, r)
  | _ => none

/-- A Unicode scalar value as a character. -/
def scalar (n : Nat) : Option Char := if n.isValidChar then some (Char.ofNat n) else none

/-- The UTF-16 encoding of a code point (Unicode standard, table 3-5). -/
def utf16 (c : Char) : List Nat :=
  if c.toNat ≤ 0xffff then [c.toNat]
  else
    let u := c.toNat - 0x10000
    [0xd800 + u / 1024, 0xdc00 + u % 1024]

/-- A reader of one element of a literal. -/
abbrev Reader (α : Type) := Str → Option (List α × Str)

/-- Read a whole literal. `fuel` bounds the number of elements. -/
def readAll {α : Type} (rd : Reader α) : Nat → Str → Option (List α)
  | _, [] => some []
  | 0, _ :: _ => none
  | fuel + 1, c :: s =>
    match rd (c :: s) with
    | none => none
    | some (o, r) => (readAll rd fuel r).map (o ++ ·)

/-- The value of the inside `s` of a literal. -/
def decode {α : Type} (rd : Reader α) (s : Str) : Option (List α) := readAll rd s.length s

/-- Simple escapes: a backslash, one character, and its meaning. -/
abbrev Simple := List (Char × Nat)

def Simple.get (t : Simple) (c : Char) : Option Nat := (t.find? (fun p => p.1 = c)).map (·.2)

/-! ## Code points -/

/-- Escape sequences of `rustReader`, after the backslash. -/
def rustEscape : Reader Char
  | [] => none
  | c :: r =>
    if c = 'x' then
      (hexExact 2 0 r).bind fun (v, r) => if v ≤ 0x7f then some ([Char.ofNat v], r) else none
    else if c = 'u' then
      match r with
      | '{' :: r => (hexBraced 6 r).bind fun (v, r) => (scalar v).map fun c => ([c], r)
      | _ => none
    else
      (Simple.get [('n', 10), ('r', 13), ('t', 9), ('\\', 92), ('0', 0), ('\'', 39), ('"', 34)] c).map
        fun v => ([Char.ofNat v], r)

/-- Rust string literals (The Rust Reference, "String literals"): quote escapes,
ASCII escapes `\xHH` up to 7F, Unicode escapes `\u{...}` of up to six digits;
a bare carriage return is not allowed. -/
def rustReader : Reader Char
  | [] => none
  | c :: r =>
    if c = '\\' then rustEscape r
    else if c = '"' ∨ c = '\r' then none else some ([c], r)

/-- Escape sequences of `swiftReader`, after the backslash. -/
def swiftEscape : Reader Char
  | [] => none
  | c :: r =>
    if c = 'u' then
      match r with
      | '{' :: r => (hexBraced 8 r).bind fun (v, r) => (scalar v).map fun c => ([c], r)
      | _ => none
    else
      (Simple.get [('0', 0), ('\\', 92), ('t', 9), ('n', 10), ('r', 13), ('"', 34), ('\'', 39)] c).map
        fun v => ([Char.ofNat v], r)

/-- Swift string literals (The Swift Programming Language, "String Literals"):
escapes `\0 \\ \t \n \r \" \'` and `\u{...}` of one to eight digits; `\(` starts
an interpolation, which is not text; no raw line break. -/
def swiftReader : Reader Char
  | [] => none
  | c :: r =>
    if c = '\\' then swiftEscape r
    else if c = '"' ∨ c = '\n' ∨ c = '\r' then none else some ([c], r)

/-- Escape sequences of `pythonReader`, after the backslash. -/
def pythonEscape : Reader Char
  | [] => none
  | c :: r =>
    if c = 'x' then (hexExact 2 0 r).bind fun (v, r) => (scalar v).map fun c => ([c], r)
    else if c = 'u' then (hexExact 4 0 r).bind fun (v, r) => (scalar v).map fun c => ([c], r)
    else if c = 'U' then (hexExact 8 0 r).bind fun (v, r) => (scalar v).map fun c => ([c], r)
    else
      (Simple.get [('\\', 92), ('\'', 39), ('"', 34), ('a', 7), ('b', 8), ('f', 12), ('n', 10),
        ('r', 13), ('t', 9), ('v', 11)] c).map fun v => ([Char.ofNat v], r)

/-- Python string literals (The Python Language Reference, 2.4.1): `\xHH`
(exactly two), `\uXXXX`, `\UXXXXXXXX`; no raw line break. -/
def pythonReader : Reader Char
  | [] => none
  | c :: r =>
    if c = '\\' then pythonEscape r
    else if c = '"' ∨ c = '\n' ∨ c = '\r' then none else some ([c], r)

/-! ## UTF-16 units -/

/-- JavaScript double-quoted strings in strict code (ECMA-262, 12.9.4): `\0` must
not be followed by a digit; `\xHH`, `\uXXXX`, `\u{...}`; a line feed or carriage
return is not allowed; other escaped characters stand for themselves. -/
def jsEscape : Reader Nat
  | [] => none
  | c :: r =>
    if c = 'x' then (hexExact 2 0 r).map fun (v, r) => ([v], r)
    else if c = 'u' then
      match r with
      | '{' :: r => (hexBraced 8 r).bind fun (v, r) => (scalar v).map fun c => (utf16 c, r)
      | r => (hexExact 4 0 r).map fun (v, r) => ([v], r)
    else if c = '0' then
      match r with
      | d :: r => if 48 ≤ d.toNat ∧ d.toNat ≤ 57 then none else some ([0], d :: r)
      | [] => some ([0], [])
    else if 49 ≤ c.toNat ∧ c.toNat ≤ 57 then none
    else if c = '\n' ∨ c = '\r' then none
    else
      match Simple.get [('b', 8), ('t', 9), ('n', 10), ('v', 11), ('f', 12), ('r', 13)] c with
      | some v => some ([v], r)
      | none => some (utf16 c, r)

/-- JavaScript double-quoted strings. -/
def jsReader : Reader Nat
  | [] => none
  | c :: r =>
    if c = '\\' then jsEscape r
    else if c = '"' ∨ c = '\n' ∨ c = '\r' then none else some (utf16 c, r)

/-- JavaScript template characters (ECMA-262, 12.9.6): a backtick ends the
template, `${` starts a substitution; carriage returns are not kept. -/
def templateReader : Reader Nat
  | [] => none
  | c :: r =>
    if c = '\\' then jsEscape r
    else if c = '$' ∧ r.head? = some '{' then none
    else if c = '`' ∨ c = '\r' then none else some (utf16 c, r)

/-- Escape sequences of `dartReader`, after the backslash. -/
def dartEscape : Reader Nat
  | [] => none
  | c :: r =>
    if c = 'x' then (hexExact 2 0 r).map fun (v, r) => ([v], r)
    else if c = 'u' then
      match r with
      | '{' :: r => (hexBraced 6 r).bind fun (v, r) => (scalar v).map fun c => (utf16 c, r)
      | r => (hexExact 4 0 r).map fun (v, r) => ([v], r)
    else if c = '\n' ∨ c = '\r' then none
    else
      match Simple.get [('n', 10), ('r', 13), ('f', 12), ('b', 8), ('t', 9), ('v', 11)] c with
      | some v => some ([v], r)
      | none => some (utf16 c, r)

/-- Dart double-quoted strings (Dart Language Specification, "Strings"): `\xHH`,
`\uXXXX`, `\u{...}` of one to six digits, other escaped characters stand for
themselves; a raw `$` starts an interpolation; no raw line break. -/
def dartReader : Reader Nat
  | [] => none
  | c :: r =>
    if c = '\\' then dartEscape r
    else if c = '"' ∨ c = '$' ∨ c = '\n' ∨ c = '\r' then none else some (utf16 c, r)

/-- Escape sequences of `csharpReader`, after the backslash. -/
def csharpEscape : Reader Nat
  | [] => none
  | c :: r =>
    if c = 'x' then
      match hexUpTo 4 0 0 r with
      | (0, _, _) => none
      | (_ + 1, v, r) => some ([v], r)
    else if c = 'u' then (hexExact 4 0 r).map fun (v, r) => ([v], r)
    else if c = 'U' then (hexExact 8 0 r).bind fun (v, r) => (scalar v).map fun c => (utf16 c, r)
    else
      (Simple.get [('\'', 39), ('"', 34), ('\\', 92), ('0', 0), ('a', 7), ('b', 8), ('f', 12),
        ('n', 10), ('r', 13), ('t', 9), ('v', 11)] c).map fun v => ([v], r)

/-- C# regular string literals (C# Language Specification, 6.4.5.6): simple
escapes, `\x` with one to four digits taking as many as there are, `\uXXXX`,
`\UXXXXXXXX`; no raw new-line character. -/
def csharpReader : Reader Nat
  | [] => none
  | c :: r =>
    if c = '\\' then csharpEscape r
    else if c = '"' ∨ c = '\n' ∨ c = '\r' ∨ c.toNat = 0x85 ∨ c.toNat = 0x2028 ∨ c.toNat = 0x2029 then none
    else some (utf16 c, r)

/-- First step of reading Java source (JLS 3.3): `\u` escapes become UTF-16
units. Only a backslash not preceded by an odd number of backslashes can start
one. -/
def javaUnicode : Reader Nat
  | [] => none
  | c :: r =>
    if c = '\\' then
      match r with
      | [] => some ([92], [])
      | e :: r =>
        if e = '\\' then some ([92, 92], r)
        else if e = 'u' then
          (hexExact 4 0 (r.dropWhile (· = 'u'))).map fun (v, r) => ([v], r)
        else some ([92], e :: r)
    else some (utf16 c, r)

/-- Second step (JLS 3.10.5, 3.10.7): escape sequences on the translated units;
no line feed, carriage return or quote may be left. -/
def javaEscapes : List Nat → Option (List Nat)
  | [] => some []
  | 92 :: c :: r =>
    (([(98, 8), (115, 32), (116, 9), (110, 10), (102, 12), (114, 13), (34, 34), (39, 39),
      (92, 92)] : List (Nat × Nat)).lookup c).bind fun v => (javaEscapes r).map (v :: ·)
  | c :: r => if c = 92 ∨ c = 34 ∨ c = 10 ∨ c = 13 then none else (javaEscapes r).map (c :: ·)

/-- Java string literals. -/
def javaDecode (s : Str) : Option (List Nat) := (decode javaUnicode s).bind javaEscapes

/-! ## Bytes -/

/-- UTF-8 bytes of a code point. -/
def bytes (c : Char) : List UInt8 := String.utf8EncodeChar c

/-- Escape sequences of `goReader`, after the backslash. -/
def goEscape : Reader UInt8
  | [] => none
  | c :: r =>
    if c = 'x' then (hexExact 2 0 r).map fun (v, r) => ([UInt8.ofNat v], r)
    else if c = 'u' then (hexExact 4 0 r).bind fun (v, r) => (scalar v).map fun c => (bytes c, r)
    else if c = 'U' then (hexExact 8 0 r).bind fun (v, r) => (scalar v).map fun c => (bytes c, r)
    else
      (Simple.get [('a', 7), ('b', 8), ('f', 12), ('n', 10), ('r', 13), ('t', 9), ('v', 11),
        ('\\', 92), ('"', 34)] c).map fun v => ([UInt8.ofNat v], r)

/-- Go interpreted string literals (The Go Programming Language Specification,
"String literals"): `\xHH` is a byte, `\uXXXX` and `\UXXXXXXXX` are characters;
`\'` is only legal in rune literals; no raw line feed. -/
def goReader : Reader UInt8
  | [] => none
  | c :: r =>
    if c = '\\' then goEscape r
    else if c = '"' ∨ c = '\n' then none else some (bytes c, r)

/-- Escape sequences of `cReader`, after the backslash. -/
def cEscape : Reader UInt8
  | [] => none
  | c :: r =>
    let universal (v : Nat) (r : Str) : Option (List UInt8 × Str) :=
      if v < 0xa0 ∧ v ≠ 0x24 ∧ v ≠ 0x40 ∧ v ≠ 0x60 then none
      else (scalar v).map fun c => (bytes c, r)
    if c = 'x' then
      match hexUpTo r.length 0 0 r with
      | (0, _, _) => none
      | (_ + 1, v, r) => if v < 256 then some ([UInt8.ofNat v], r) else none
    else if c = 'u' then (hexExact 4 0 r).bind fun (v, r) => universal v r
    else if c = 'U' then (hexExact 8 0 r).bind fun (v, r) => universal v r
    else
      (Simple.get [('\'', 39), ('"', 34), ('?', 63), ('\\', 92), ('a', 7), ('b', 8), ('f', 12),
        ('n', 10), ('r', 13), ('t', 9), ('v', 11)] c).map fun v => ([UInt8.ofNat v], r)

/-- C string literals with an UTF-8 execution character set (ISO C 6.4.4.4,
6.4.5, 6.4.3): `\x` takes as many hexadecimal digits as there are and must fit a
byte; `\u`/`\U` below A0 are not allowed but for `$`, `@` and backtick. -/
def cReader : Reader UInt8
  | [] => none
  | c :: r =>
    if c = '\\' then cEscape r
    else if c = '"' ∨ c = '\n' then none else some (bytes c, r)

/-- Nix strings (Nix manual, "String literals"): `\n`, `\r`, `\t`; any other
escaped character stands for itself; `${` starts an antiquotation, but `$$` is
two dollar signs. -/
def nixReader : Reader UInt8
  | [] => none
  | c :: r =>
    if c = '\\' then
      match r with
      | [] => none
      | e :: r =>
        if e = 'n' then some ([10], r)
        else if e = 'r' then some ([13], r)
        else if e = 't' then some ([9], r)
        else some (bytes e, r)
    else if c = '$' then
      match r with
      | [] => some ([36], [])
      | e :: r =>
        if e = '{' then none
        else if e = '$' then some ([36, 36], r)
        else some ([36], e :: r)
    else if c = '"' then none else some (bytes c, r)

/-! ## Conditions on texts -/

/-- Control characters (Unicode general category Cc). -/
def control (c : Char) : Bool := c.toNat < 0x20 || (0x7f ≤ c.toNat && c.toNat < 0xa0)

/-- ASCII control characters that are not written as a backslash and a letter. -/
def hexed (c : Char) : Bool :=
  control c && c.toNat < 0x80 &&
    !(['\x07', '\x08', '\t', '\n', '\r', '\x11', '\x12'] : List Char).contains c

/-- In `s` no such control character is followed by a hexadecimal digit. -/
def ControlsApart (s : Str) : Prop :=
  ∀ p c d r, s = p ++ c :: d :: r → hexed c = true → hexVal d = none

/-- Nix takes dollar signs in pairs; a `$` that is left before a `{` opens an antiquotation. -/
def opensCode : Str → Bool
  | '$' :: '{' :: _ => true
  | '$' :: '$' :: r => opensCode r
  | _ :: r => opensCode r
  | [] => false

/-- In `s` no NUL is followed by a decimal digit. -/
def NulsApart (s : Str) : Prop :=
  ∀ p d r, s = p ++ '\x00' :: d :: r → ¬ (48 ≤ d.toNat ∧ d.toNat ≤ 57)

/-! ## Delimiters -/

/-- A lexer looking for the closing quote: a backslash takes the next character
with it. Gives the inside and what follows; `none` if there is no closing quote
or a raw line break comes first. -/
def closeAt : Str → Option (Str × Str)
  | [] => none
  | c :: r =>
    if c = '"' then some ([], r)
    else if c = '\n' ∨ c = '\r' then none
    else if c = '\\' then
      match r with
      | [] => none
      | e :: r =>
        if e = '\n' ∨ e = '\r' then none else (closeAt r).map fun (a, b) => (c :: e :: a, b)
    else (closeAt r).map fun (a, b) => (c :: a, b)

end Genco.Spec
