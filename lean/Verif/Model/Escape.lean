import Verif.Model.Formatter

/-!
# Quoting callbacks of the built-in languages

`write_quoted` of every language. All loop over the characters of the input; the
functions here give the text written for one character. Where the code uses
`write!` with a format string, the real calls to `write_str` are more
fine-grained; the text is the same.
-/

set_option autoImplicit false

namespace Genco

/-- `char::is_control` (general category Cc). -/
def isControl (c : Char) : Bool := c.toNat < 0x20 || (0x7f ≤ c.toNat && c.toNat < 0xa0)

/-- `char::is_ascii`. -/
def isAscii (c : Char) : Bool := c.toNat < 0x80

/-- A lower-case hexadecimal digit. -/
def hexDigit (d : Nat) : Char := "0123456789abcdef".toList.getD d '0'

/-- The last `k` hexadecimal digits of `n`. -/
def hexFixed : Nat → Nat → Str
  | 0, _ => []
  | k + 1, n => hexFixed k (n / 16) ++ [hexDigit (n % 16)]

/-- Number of hexadecimal digits of an `u32`. -/
def hexLen (n : Nat) : Nat :=
  if n < 0x10 then 1 else if n < 0x100 then 2 else if n < 0x1000 then 3
  else if n < 0x10000 then 4 else if n < 0x100000 then 5 else if n < 0x1000000 then 6
  else if n < 0x10000000 then 7 else 8

/-- `{:0kx}` for an `u32` (`{:x}` for `k = 1`). -/
def hexMin (k n : Nat) : Str := hexFixed (max k (hexLen n)) n

/-- `char::encode_utf16`. -/
def utf16Char (c : Char) : List Nat :=
  if c.toNat < 0x10000 then [c.toNat]
  else [0xd800 + (c.toNat - 0x10000) / 0x400, 0xdc00 + (c.toNat - 0x10000) % 0x400]

/-- `c_family_write_quoted`, src/lang/mod.rs 182-220, for one character. -/
def escCFamily (c : Char) : Str :=
  if c = '\x07' then "\\a".toList
  else if c = '\x08' then "\\b".toList
  else if c = '\x12' then "\\f".toList
  else if c = '\n' then "\\n".toList
  else if c = '\r' then "\\r".toList
  else if c = '\t' then "\\t".toList
  else if c = '\x11' then "\\v".toList
  else if c = '\'' then "\\'".toList
  else if c = '"' then "\\\"".toList
  else if c = '\\' then "\\\\".toList
  else if c = ' ' then [' ']
  else if isAscii c then
    if !isControl c then [c] else "\\x".toList ++ hexMin 2 c.toNat
  else if c.toNat < 0x10000 then "\\u".toList ++ hexMin 4 c.toNat
  else "\\U".toList ++ hexMin 8 c.toNat

/-- `write_quoted` of Rust, src/lang/rust.rs 60-89, for one character. -/
def escRust (c : Char) : Str :=
  if c = '\n' then "\\n".toList
  else if c = '\r' then "\\r".toList
  else if c = '\t' then "\\t".toList
  else if c = '\\' then "\\\\".toList
  else if c = '\x00' then "\\0".toList
  else if c = '"' then "\\\"".toList
  else if !isControl c then [c]
  else if c.toNat < 0x80 then "\\x".toList ++ hexMin 2 c.toNat
  else "\\u{".toList ++ hexMin 4 c.toNat ++ ['}']

/-- `write_quoted` of JavaScript, src/lang/js.rs 124-158, for one character. -/
def escJs (c : Char) : Str :=
  if c = '\x08' then "\\b".toList
  else if c = '\x12' then "\\f".toList
  else if c = '\n' then "\\n".toList
  else if c = '\r' then "\\r".toList
  else if c = '\t' then "\\t".toList
  else if c = '\x11' then "\\v".toList
  else if c = '\x00' then "\\0".toList
  else if c = '"' then "\\\"".toList
  else if c = '\\' then "\\\\".toList
  else if !isControl c then [c]
  else if c.toNat < 0x100 then "\\x".toList ++ hexMin 2 c.toNat
  else "\\u{".toList ++ hexMin 1 c.toNat ++ ['}']

/-- `write_quoted` of Swift, src/lang/swift.rs 34-54, for one character. -/
def escSwift (c : Char) : Str :=
  if c = '\x00' then "\\0".toList
  else if c = '\\' then "\\\\".toList
  else if c = '\t' then "\\t".toList
  else if c = '\n' then "\\n".toList
  else if c = '\r' then "\\r".toList
  else if c = '\'' then "\\'".toList
  else if c = '"' then "\\\"".toList
  else if !isControl c then [c]
  else "\\u{".toList ++ hexMin 1 c.toNat ++ ['}']

/-- One `\uXXXX` per UTF-16 unit, the inner loops of src/lang/java/mod.rs 57-59
and src/lang/dart/mod.rs 122-124. -/
def escUtf16 (c : Char) : Str := (utf16Char c).flatMap (fun u => "\\u".toList ++ hexMin 4 u)

/-- `write_quoted` of Java, src/lang/java/mod.rs 41-65, for one character. -/
def escJava (c : Char) : Str :=
  if c = '\t' then "\\t".toList
  else if c = '\x07' then "\\b".toList
  else if c = '\n' then "\\n".toList
  else if c = '\r' then "\\r".toList
  else if c = '\x14' then "\\f".toList
  else if c = '\'' then "\\'".toList
  else if c = '"' then "\\\"".toList
  else if c = '\\' then "\\\\".toList
  else if c = ' ' then [' ']
  else if isAscii c && !isControl c then [c]
  else escUtf16 c

/-- `write_quoted` of Dart, src/lang/dart/mod.rs 94-130, for one character. -/
def escDart (c : Char) : Str :=
  if c = '\x08' then "\\b".toList
  else if c = '\x12' then "\\f".toList
  else if c = '\n' then "\\n".toList
  else if c = '\r' then "\\r".toList
  else if c = '\t' then "\\t".toList
  else if c = '\x11' then "\\v".toList
  else if c = '"' then "\\\"".toList
  else if c = '\\' then "\\\\".toList
  else if c = '$' then "\\$".toList
  else if !isControl c then [c]
  else if c.toNat < 0x100 then "\\x".toList ++ hexMin 2 c.toNat
  else escUtf16 c

variable {ι : Type}

/-- The defaults of `Lang`, src/lang/mod.rs 64-124, with a given
`write_quoted`, without interpolation. Rust, Swift, Python, Java, C, C#, Go and
Nix override none of the other callbacks. -/
def baseLang (esc : Char → Str) (langItem : ι → List Str) : Lang ι where
  openQuote _ := [['"']]
  closeQuote _ := [['"']]
  writeQuoted s := s.map esc
  startEval := []
  endEval := []
  evalLiteral s := [] ++ [s] ++ []
  langItem := langItem

/-- `Rust`, src/lang/rust.rs 53-104. -/
def rustLang (li : ι → List Str) : Lang ι := baseLang escRust li
/-- `Swift`, src/lang/swift.rs 27-68. -/
def swiftLang (li : ι → List Str) : Lang ι := baseLang escSwift li
/-- `Python`, src/lang/python.rs 33-57: `write_quoted` is the C family one. -/
def pythonLang (li : ι → List Str) : Lang ι := baseLang escCFamily li
/-- `Java`, src/lang/java/mod.rs 34-85. -/
def javaLang (li : ι → List Str) : Lang ι := baseLang escJava li
/-- `C`, src/lang/c.rs 15-38: `write_quoted` is the C family one. -/
def cLang (li : ι → List Str) : Lang ι := baseLang escCFamily li
/-- `Csharp`, src/lang/csharp/mod.rs 39-77: `write_quoted` is the C family one. -/
def csharpLang (li : ι → List Str) : Lang ι := baseLang escCFamily li
/-- `Go`, src/lang/go.rs 60-90: `write_quoted` is the C family one. -/
def goLang (li : ι → List Str) : Lang ι := baseLang escCFamily li
/-- `Nix`, src/lang/nix.rs 16-44: `write_quoted` is the C family one. -/
def nixLang (li : ι → List Str) : Lang ι := baseLang escCFamily li

/-- `JavaScript`, src/lang/js.rs 67-172. -/
def jsLang (li : ι → List Str) : Lang ι where
  openQuote e := if e then [['`']] else [['"']]
  closeQuote e := if e then [['`']] else [['"']]
  writeQuoted s := s.map escJs
  startEval := ["${".toList]
  endEval := [['}']]
  evalLiteral s := ["${".toList] ++ [s] ++ [['}']]
  langItem := li

/-- `Dart`, src/lang/dart/mod.rs 57-144. `string_eval_literal` is overridden
(64-72). -/
def dartLang (li : ι → List Str) : Lang ι where
  openQuote _ := [['"']]
  closeQuote _ := [['"']]
  writeQuoted s := s.map escDart
  startEval := ["${".toList]
  endEval := [['}']]
  evalLiteral s := [['$'], s]
  langItem := li

end Genco
