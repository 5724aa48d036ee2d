import Verif.Model.MacroParse
import Verif.Model.Values

/-!
# From source text to the calls of a macro

What the compiler and `syn` do with a macro invocation is no code of the repository. This is
a model of the part that is needed for the invocations in `src/lang`: words, decimal
numbers without point, punctuation, strings and characters with simple escapes, comments to the end of a
line, and groups. Other comments, raw and byte strings, words with a prefix like `r#`, strings with a suffix,
other numbers and lifetimes are left out: the lexer gives `none`, as for text that is no Rust. A number with a
point, which is one token of Rust, is three here, without a space between them; what is written is the same.
-/

set_option autoImplicit false

namespace Genco.Macro

/-- `c!"abc"` is the list of characters `['a', 'b', 'c']`; unlike `"abc".toList` there is nothing
left to compute. -/
macro:max "c!" s:str : term => do
  let cs := (s.getString.toList.map Lean.Syntax.mkCharLit).toArray
  `([$cs,*])

/-- A place in a source file. Lines start with 1, columns with 0; the offset is in bytes. -/
structure Place where
  line : Nat
  column : Nat
  offset : Nat
  deriving DecidableEq, Repr

/-- The place behind a character. -/
def Place.next (p : Place) (c : Char) : Place :=
  if c = '\n' then ⟨p.line + 1, 0, p.offset + 1⟩ else ⟨p.line, p.column + 1, p.offset + c.utf8Size⟩

/-- Compilers, genco-macros/build.rs 5-16. -/
inductive Compiler where
  | nightly
  | stable
  deriving DecidableEq, Repr

/-- `LineColumn::start` and `LineColumn::end` on nightly compilers; on others the offsets
`find_line_column` gives, on the first line. genco-macros/src/fake.rs 20-49, 68-91. -/
def Compiler.pos : Compiler → Place → Pos
  | .nightly, p => ⟨p.line, p.column⟩
  | .stable, p => ⟨1, p.offset⟩

/-- Characters of words. -/
def wordChar (c : Char) : Bool := c.isAlphanum || c == '_'

/-- Characters of punctuation. -/
def punctChar (c : Char) : Bool := c!"~!@#$%^&*-=+|;:,<.>/?'".contains c

/-- The opening delimiters. -/
def opens : Char → Option Delimiter
  | '(' => some .parenthesis
  | '{' => some .brace
  | '[' => some .bracket
  | _ => none

/-- The closing delimiters. -/
def closes : Char → Option Delimiter
  | ')' => some .parenthesis
  | '}' => some .brace
  | ']' => some .bracket
  | _ => none

/-- The character behind a backslash. -/
def unescape : Char → Option Char
  | 'n' => some '\n'
  | 'r' => some '\r'
  | 't' => some '\t'
  | '0' => some '\x00'
  | '\\' => some '\\'
  | '"' => some '"'
  | '\'' => some '\''
  | _ => none

/-- A token before groups are formed. -/
inductive Raw where
  | leaf (t : TT)
  | opening (start : Place) (d : Delimiter)
  | closing (stop : Place) (d : Delimiter)

/-- What has been begun. Texts are in reverse. -/
inductive Pending where
  | none
  | word (start : Place) (text : Str)
  /-- A string, or a character if `ch`; `esc` behind a backslash. -/
  | quote (start : Place) (ch esc : Bool) (value text : Str)
  /-- A comment to the end of the line, of which so many characters have been read. -/
  | comment (read : Nat)

/-- A comment starts here. -/
def startsComment : Str → Bool
  | '/' :: '/' :: _ => true
  | '/' :: '*' :: _ => true
  | _ => false

section

variable (C : Compiler)

/-- The types a number can end with. -/
def suffixes : List Str := [c!"u8", c!"u16", c!"u32", c!"u64", c!"u128", c!"usize", c!"i8", c!"i16", c!"i32", c!"i64",
  c!"i128", c!"isize", c!"f32", c!"f64"]

/-- The rest of a decimal number without point. -/
def numberRest (r : Str) : Bool :=
  let s := r.dropWhile (fun c => c.isDigit || c == '_')
  s.isEmpty || suffixes.contains s

/-- The word that has ended. Of the numbers, only decimal ones. -/
def wordToken (start stop : Place) (text : Str) : Option Raw :=
  match text.reverse with
  | c :: r =>
    if c.isDigit then
      if numberRest r then some (.leaf (.lit ⟨C.pos start, C.pos stop⟩ (c :: r)))
      else none
    else some (.leaf (.ident ⟨C.pos start, C.pos stop⟩ (c :: r)))
  | [] => none

/-- A character where no token has been begun, with what follows. -/
def lexFresh (p : Place) (c : Char) (rest : Str) : Option (List Raw × Pending) :=
  if c.isWhitespace then some ([], .none)
  else if wordChar c then some ([], .word p [c])
  else if c = '"' then some ([], .quote p false false [] [c])
  else if c = '\'' then some ([], .quote p true false [] [c])
  else if startsComment (c :: rest) then if rest.head? = some '/' then some ([], .comment 1) else none
  else
    match opens c, closes c with
    | some d, _ => some ([.opening p d], .none)
    | none, some d => some ([.closing (p.next c) d], .none)
    | none, none =>
      if punctChar c then
        some ([.leaf (.punct ⟨C.pos p, C.pos (p.next c)⟩ c
          (!startsComment rest && rest.head?.any punctChar))], .none)
      else none

/-- One character. -/
def lexStep (p : Place) (c : Char) (rest : Str) : Pending → Option (List Raw × Pending)
  | .none => lexFresh C p c rest
  | .word start text =>
    if wordChar c then some ([], .word start (c :: text))
    -- a prefix
    else if c = '#' ∨ c = '"' ∨ c = '\'' then none
    else do
      let w ← wordToken C start p text
      let o ← lexFresh C p c rest
      some (w :: o.1, o.2)
  | .quote start ch true value text =>
    (unescape c).map (fun v => ([], .quote start ch false (v :: value) (c :: text)))
  | .quote start false false value text =>
    if c = '\\' then some ([], .quote start false true value (c :: text))
    -- a suffix
    else if c = '"' then if rest.head?.any wordChar then none else
      some ([.leaf (.str ⟨C.pos start, C.pos (p.next c)⟩ value.reverse (c :: text).reverse)], .none)
    else if c = '\r' then none
    else some ([], .quote start false false (c :: value) (c :: text))
  | .quote start true false value text =>
    if c = '\\' then some ([], .quote start true true value (c :: text))
    else if c = '\'' then if rest.head?.any wordChar then none else
      match value with
      | [v] => some ([.leaf (.char ⟨C.pos start, C.pos (p.next c)⟩ v (c :: text).reverse)], .none)
      | _ => none
    else if c = '\n' ∨ c = '\r' ∨ c = '\t' then none
    else some ([], .quote start true false (c :: value) (c :: text))
  | .comment n =>
    if c = '\n' then some ([], .none)
    -- documentation is an attribute
    else if n = 2 ∧ (c = '/' ∨ c = '!') then none
    else some ([], .comment (n + 1))

/-- The tokens of a text. -/
def lexFrom (p : Place) (pend : Pending) : Str → Option (List Raw)
  | [] =>
    match pend with
    | .none => some []
    | .word start text => (wordToken C start p text).map (fun w => [w])
    | .quote _ _ _ _ _ => none
    | .comment _ => some []
  | c :: r => do
    let (out, pend) ← lexStep C p c r pend
    let rest ← lexFrom (p.next c) pend r
    some (out ++ rest)

/-- Groups are formed. `stack` are the groups that are open, `acc` is what is in the innermost
one, in reverse. -/
def trees (stack : List (Place × Delimiter × List TT)) (acc : List TT) : List Raw → Option (List TT)
  | [] => if stack.isEmpty then some acc.reverse else none
  | .leaf t :: r => trees stack (t :: acc) r
  | .opening p d :: r => trees ((p, d, acc) :: stack) [] r
  | .closing q d :: r =>
    match stack with
    | (p, d', outer) :: stack =>
      if d = d' then trees stack (.group ⟨C.pos p, C.pos q⟩ d acc.reverse :: outer) r else none
    | [] => none

/-- The token trees of a text that starts at the place. -/
def lex (p : Place) (s : Str) : Option (List TT) := do
  let rs ← lexFrom C p .none s
  trees C [] [] rs

end

/-! ## What `syn` does with simple code -/

/-- Tokens up to the first place where the test says so, at least one. -/
def upTo (stop : List TT → Bool) : List TT → Option (List TT × List TT)
  | [] => none
  | t :: r =>
    match r with
    | [] => some ([t], [])
    | _ :: _ =>
      if stop r then some ([t], r)
      else (upTo stop r).map (fun p => (t :: p.1, p.2))

/-- An expression ends before `=>` and before a word that is no operator. -/
def exprEnd (ts : List TT) : Bool := (fatArrow ts).isSome || startsWith "join" ts

/-- A brace. -/
def startsBrace : List TT → Bool
  | .group _ .brace _ :: _ => true
  | _ => false

/-- `=` -/
def startsEq : List TT → Bool
  | .punct _ c _ :: _ => c == '='
  | _ => false

mutual
/-- The tokens of a piece of code. -/
def TT.words : TT → List Str
  | .ident _ name => [name]
  | .punct _ c _ => [[c]]
  | .str _ _ text => [text]
  | .char _ _ text => [text]
  | .lit _ text => [text]
  | .group _ d content => [d.encodeOpen] :: wordsAll content ++ [[d.encodeClose]]
/-- The tokens of a sequence of token trees. -/
def wordsAll : List TT → List Str
  | [] => []
  | t :: r => t.words ++ wordsAll r
end

/-- Keywords of Rust. -/
def keywords : List Str := [c!"as", c!"break", c!"const", c!"continue", c!"crate", c!"else", c!"enum", c!"extern",
  c!"false", c!"fn", c!"for", c!"if", c!"impl", c!"in", c!"let", c!"loop", c!"match", c!"mod", c!"move", c!"mut",
  c!"pub", c!"ref", c!"return", c!"self", c!"Self", c!"static", c!"struct", c!"super", c!"trait", c!"true", c!"type",
  c!"unsafe", c!"use", c!"where", c!"while", c!"async", c!"await", c!"dyn", c!"abstract", c!"become", c!"box",
  c!"do", c!"final", c!"macro", c!"override", c!"priv", c!"typeof", c!"unsized", c!"virtual", c!"yield", c!"try",
  c!"_"]

/-- Expressions and patterns as far as they occur in the invocations of `src/lang`. -/
def syn : Syn where
  expr := upTo (fun ts => exprEnd ts || startsBrace ts)
  fullExpr := upTo exprEnd
  pat := upTo (fun ts => (fatArrow ts).isSome || startsWith "in" ts || startsEq ts)
  patMulti := upTo (fun ts => (fatArrow ts).isSome || startsWith "if" ts)
  keyword w := keywords.contains w
  display t := t.words.flatten

/-- A piece of code: its tokens. -/
abbrev Code := List Str

/-- A text given by its lines. -/
def textOf : List Str → Str
  | [] => []
  | [l] => l
  | l :: r => l ++ '\n' :: textOf r

/-- Code written in the model, by lines. -/
def codes (ls : List Str) : Code := ((lex .nightly ⟨1, 0, 0⟩ (textOf ls)).map wordsAll).getD []

/-- Code written in the model. -/
def code (s : Str) : Code := codes [s]

variable {ι Env : Type}

/-- Code means the same wherever it is. -/
def Host.anywhere (K : Host ι Code Env) : Host ι (List TT) Env where
  value ρ e := K.value ρ (wordsAll e)
  scope ρ e := K.scope ρ (wordsAll e)
  iter ρ p e := K.iter ρ (wordsAll p) (wordsAll e)
  test ρ e := K.test ρ (wordsAll e)
  pick ρ e p g := K.pick ρ (wordsAll e) (wordsAll p) (g.map wordsAll)
  bind ρ p e := K.bind ρ (wordsAll p) (wordsAll e)

/-- An invocation of a macro: where the text between the delimiters starts, and its lines. -/
structure Invocation where
  place : Place
  lines : List Str

/-- Rounds for the parser: more than a text of this length needs. -/
def Invocation.rounds (i : Invocation) : Nat := 4 * (textOf i.lines).length + 8

/-- The statements generated for `quote_in!(receiver => ...)`. -/
def Invocation.quoteIn (C : Compiler) (i : Invocation) : Option (List (Stmt ι (List TT))) := do
  let ts ← lex C i.place (textOf i.lines)
  let (_, ns) ← parseQuoteIn syn i.rounds ts
  match quote none ns with
  | .ok (_, ss) => some ss
  | .error _ => none

/-- The statements generated for `quote!(...)`. -/
def Invocation.quote (C : Compiler) (i : Invocation) : Option (List (Stmt ι (List TT))) := do
  let ts ← lex C i.place (textOf i.lines)
  let ns ← parseAll syn i.rounds ts
  match Macro.quote none ns with
  | .ok (_, ss) => some ss
  | .error _ => none

/-- What `quote_in!` does to its receiver. -/
def Invocation.runIn (C : Compiler) (K : Host ι Code Env) (ρ : Env) (i : Invocation) (t : Tokens ι) :
    Option (Tokens ι) :=
  (i.quoteIn C).map (fun ss => (runBlock K.anywhere ρ ss).foldl Call.run t)

/-- The stream `quote!` makes. -/
def Invocation.make (C : Compiler) (K : Host ι Code Env) (ρ : Env) (i : Invocation) : Option (Tokens ι) :=
  (i.quote C).map (fun ss => history (runBlock K.anywhere ρ ss))

end Genco.Macro
