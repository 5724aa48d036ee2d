import Verif.Model.Tokens

/-!
# Values that can be appended

Mirrors the implementations of `FormatInto` and `Register`:
`src/tokens/format_into.rs`, `item.rs`, `item_str.rs`, `quoted.rs`, `display.rs`,
`static_literal.rs`, `from_fn.rs`, `internal.rs`, `register.rs`, `impl_lang!`
(`src/macros.rs`) and the comment helpers of C#, Java and Dart.

`Value` has one constructor for every type that implements the trait. A value that
is cloned before it is used is the same value here. The comment helpers exist for
one language each; here they can be appended to any stream.
-/

set_option autoImplicit false

namespace Genco

variable {ι : Type}

/-- `From<&str> for ItemStr`, src/tokens/item_str.rs 86-90. -/
def ItemStr.fromStr (s : Str) : ItemStr := .box s

/-- `From<&String> for ItemStr`, src/tokens/item_str.rs 74-78. -/
def ItemStr.fromStringRef (s : Str) : ItemStr := .box s

/-- `From<String> for ItemStr`, src/tokens/item_str.rs 80-84. -/
def ItemStr.fromString (s : Str) : ItemStr := .box s

/-- `From<Rc<String>> for ItemStr`, src/tokens/item_str.rs 116-120. -/
def ItemStr.fromRc (s : Str) : ItemStr := .box s

/-- `From<Box<str>> for ItemStr`, src/tokens/item_str.rs 62-66. -/
def ItemStr.fromBox (s : Str) : ItemStr := .box s

/-- `ToString` for the integer types of the standard library: a minus sign if
negative, then the decimal digits. -/
def intText (n : Int) : Str :=
  (if n < 0 then ['-'] else []) ++ Nat.toDigits 10 n.natAbs

/-- Types implementing `Register`, src/tokens/register.rs 106-137 and
src/macros.rs 174-184. -/
inductive Reg (ι : Type) where
  /-- An import, or a reference to one. -/
  | one (i : ι)
  /-- A tuple (of one to eight elements). -/
  | tuple (rs : List (Reg ι))

mutual
/-- `Register::register`, src/tokens/register.rs 115-128, src/macros.rs 174-184
(through `__lang_item_register`, src/tokens/internal.rs 29-36). -/
def Reg.register : Reg ι → Tokens ι → Tokens ι
  | .one i, t => t.langItemRegister i
  | .tuple rs, t => Reg.registerAll rs t
/-- `$(tokens.register($var);)*`, src/tokens/register.rs 124. -/
def Reg.registerAll : List (Reg ι) → Tokens ι → Tokens ι
  | [], t => t
  | r :: rs, t => Reg.registerAll rs (r.register t)
end

/-- Types implementing `FormatInto`. -/
inductive Value (ι : Type) where
  /-- `Item`. -/
  | item (i : Item ι)
  /-- `ItemStr`. -/
  | itemStr (s : ItemStr)
  /-- `&ItemStr`. -/
  | itemStrRef (s : ItemStr)
  /-- `Tokens`. -/
  | tokens (a : Tokens ι)
  /-- `&Tokens`. -/
  | tokensRef (a : Tokens ι)
  /-- `Vec<T>`. -/
  | vec (vs : List (Value ι))
  /-- `&Vec<T>`. -/
  | vecRef (vs : List (Value ι))
  /-- `&[T]`. -/
  | slice (vs : List (Value ι))
  /-- `&str`. -/
  | str (s : Str)
  /-- `&String`. -/
  | stringRef (s : Str)
  /-- `String`. -/
  | string (s : Str)
  /-- `Rc<String>`. -/
  | rc (s : Str)
  /-- `&Rc<String>`. -/
  | rcRef (s : Str)
  /-- `fmt::Arguments`, with the text it formats to. -/
  | arguments (s : Str)
  /-- `Option<T>`: `None`. -/
  | none
  /-- `Option<T>`: `Some`. -/
  | some (v : Value ι)
  /-- `Cow<str>`. -/
  | cowStr (owned : Bool) (s : Str)
  /-- `&Cow<str>`. -/
  | cowStrRef (owned : Bool) (s : Str)
  /-- `Cow<[T]>`. -/
  | cowSlice (owned : Bool) (vs : List (Value ι))
  /-- `&Cow<[T]>`. -/
  | cowSliceRef (owned : Bool) (vs : List (Value ι))
  /-- The integer types. -/
  | int (n : Int)
  /-- `QuotedFn<T>`, the result of `quoted`. -/
  | quoted (v : Value ι)
  /-- `Display<T>`, the result of `display`, with the text it formats to. -/
  | display (s : Str)
  /-- `StaticLiteral`, the result of `static_literal`. -/
  | static (s : Str)
  /-- `FromFn<F>`, the result of `from_fn`, with the calls the closure makes. -/
  | fromFn (cs : List (Call ι))
  /-- A language item or a reference to one. -/
  | lang (i : ι)
  /-- `RegisterFn<T>`, the result of `register`. -/
  | register (r : Reg ι)
  /-- `csharp::BlockComment`. -/
  | csharpBlockComment (ls : List ItemStr)
  /-- `csharp::Comment`. -/
  | csharpComment (ls : List ItemStr)
  /-- `java::BlockComment`. -/
  | javaBlockComment (ls : List ItemStr)
  /-- `dart::DocComment`. -/
  | dartDocComment (ls : List ItemStr)

/-- `csharp::BlockComment`, src/lang/csharp/block_comment.rs 15-22. -/
def csharpBlockComment : List ItemStr → Tokens ι → Tokens ι
  | [], t => t
  | l :: r, t =>
    let t := t.push
    let t := t.item (.literal (.static ['/', '/', '/']))
    let t := t.space
    let t := t.item (.literal l)
    csharpBlockComment r t

/-- `csharp::Comment`, src/lang/csharp/comment.rs 15-22. -/
def csharpComment : List ItemStr → Tokens ι → Tokens ι
  | [], t => t
  | l :: r, t =>
    let t := t.push
    let t := t.appendStatic ['/', '/']
    let t := t.space
    let t := t.item (.literal l)
    csharpComment r t

/-- `dart::DocComment`, src/lang/dart/doc_comment.rs 15-22. -/
def dartDocComment : List ItemStr → Tokens ι → Tokens ι
  | [], t => t
  | l :: r, t =>
    let t := t.push
    let t := t.appendStatic ['/', '/', '/']
    let t := t.space
    let t := t.item (.literal l)
    dartDocComment r t

/-- The loop of `java::BlockComment`, src/lang/java/block_comment.rs 26-32. -/
def javaBlockLines : List ItemStr → Tokens ι → Tokens ι
  | [], t => t
  | l :: r, t =>
    let t := t.space
    let t := t.appendStatic ['*']
    let t := t.space
    let t := t.item (.literal l)
    javaBlockLines r t.push

/-- `java::BlockComment`, src/lang/java/block_comment.rs 15-36. -/
def javaBlockComment (ls : List ItemStr) (t : Tokens ι) : Tokens ι :=
  if ls.isEmpty then t
  else
    let t := t.push
    let t := t.appendStatic ['/', '*', '*']
    let t := t.push
    let t := javaBlockLines ls t
    let t := t.space
    t.appendStr ['*', '/']

mutual
/-- `FormatInto::format_into`. -/
def Value.formatInto : Value ι → Tokens ι → Tokens ι
  /- src/tokens/item.rs 79-86 -/
  | .item i, t => t.item i
  /- src/tokens/item_str.rs 24-31 -/
  | .itemStr s, t => t.item (.literal s)
  /- src/tokens/item_str.rs 33-40 -/
  | .itemStrRef s, t => t.item (.literal s)
  /- src/tokens/format_into.rs 54-61 -/
  | .tokens a, t => t.extend a.items
  /- src/tokens/format_into.rs 78-85 -/
  | .tokensRef a, t => t.extend a.items
  /- src/tokens/format_into.rs 104-114 -/
  | .vec vs, t => Value.formatAll vs t
  /- src/tokens/format_into.rs 133-143 -/
  | .vecRef vs, t => Value.formatAll vs t
  /- src/tokens/format_into.rs 163-173 -/
  | .slice vs, t => Value.formatAll vs t
  /- src/tokens/format_into.rs 190-197 -/
  | .str s, t => t.item (.literal (.fromStr s))
  /- src/tokens/format_into.rs 214-221 -/
  | .stringRef s, t => t.item (.literal (.fromStringRef s))
  /- src/tokens/format_into.rs 239-246 -/
  | .string s, t => t.item (.literal (.fromString s))
  /- src/tokens/format_into.rs 264-271 -/
  | .rc s, t => t.item (.literal (.fromRc s))
  /- src/tokens/format_into.rs 290-297 -/
  | .rcRef s, t => t.item (.literal (.fromRc s))
  /- src/tokens/format_into.rs 313-320 -/
  | .arguments s, t => t.item (.literal (.fromString s))
  /- src/tokens/format_into.rs 339-349 -/
  | .none, t => t
  | .some v, t => v.formatInto t
  /- src/tokens/format_into.rs 367-377, 395-405 -/
  | .cowStr false s, t => t.item (.literal (.fromStr s))
  | .cowStr true s, t => t.item (.literal (.fromString s))
  | .cowStrRef false s, t => t.item (.literal (.fromStr s))
  | .cowStrRef true s, t => t.item (.literal (.fromStringRef s))
  /- src/tokens/format_into.rs 423-438, 456-471 -/
  | .cowSlice _ vs, t => Value.formatAll vs t
  | .cowSliceRef _ vs, t => Value.formatAll vs t
  /- src/tokens/format_into.rs 473-491 -/
  | .int n, t => t.item (.literal (.fromString (intText n)))
  /- src/tokens/quoted.rs 66-76 -/
  | .quoted v, t => (v.formatInto (t.item (.openQuote false))).item .closeQuote
  /- src/tokens/display.rs 73-83 -/
  | .display s, t => t.item (.literal (.fromBox s))
  /- src/tokens/static_literal.rs 12-19 -/
  | .static s, t => t.item (.literal (.static s))
  /- src/tokens/from_fn.rs 43-52 -/
  | .fromFn cs, t => cs.foldl Call.run t
  /- src/macros.rs 162-172, src/tokens/internal.rs 13-20 -/
  | .lang i, t => t.langItem i
  /- src/tokens/register.rs 64-72 -/
  | .register r, t => r.register t
  | .csharpBlockComment ls, t => Genco.csharpBlockComment ls t
  | .csharpComment ls, t => Genco.csharpComment ls t
  | .javaBlockComment ls, t => Genco.javaBlockComment ls t
  | .dartDocComment ls, t => Genco.dartDocComment ls t
/-- `for t in self { tokens.append(t) }`, src/tokens/format_into.rs 110-112, 139-141,
169-171, 431-433, 464-466. -/
def Value.formatAll : List (Value ι) → Tokens ι → Tokens ι
  | [], t => t
  | v :: vs, t => Value.formatAll vs (v.formatInto t)
end

end Genco
