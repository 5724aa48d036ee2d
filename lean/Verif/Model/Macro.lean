import Verif.Model.Tokens

/-!
# The procedural macros

The macro is modelled from the point where `syn` has split the input: a node is
what one turn of the loop in `Quote::parse_inner` consumes, with the positions
`Buf::cursor` and `Buf::join` give for it. Rust expressions, patterns and
statements that are copied to the output are of an opaque type `E`. The output is
a list of statements.
-/

set_option autoImplicit false

namespace Genco.Macro

/-- `LineColumn`, genco-macros/src/fake.rs 11-18. -/
structure Pos where
  line : Nat
  column : Nat
  deriving DecidableEq, Repr

/-- `Cursor`, genco-macros/src/cursor.rs 5-13. The span is for diagnostics only. -/
structure Cur where
  start : Pos
  stop : Pos
  deriving DecidableEq, Repr

/-- `Cursor::first_character`, genco-macros/src/cursor.rs 22-31. -/
def Cur.firstCharacter (c : Cur) : Cur := ⟨c.start, ⟨c.start.line, c.start.column + 1⟩⟩

/-- `Cursor::last_character`, genco-macros/src/cursor.rs 34-43. -/
def Cur.lastCharacter (c : Cur) : Cur := ⟨⟨c.stop.line, c.stop.column - 1⟩, c.stop⟩

/-- `Delimiter`, genco-macros/src/ast.rs 16-22. -/
inductive Delimiter where
  | parenthesis
  | brace
  | bracket
  deriving DecidableEq, Repr

/-- `Delimiter::encode_open`, genco-macros/src/ast.rs 25-33. -/
def Delimiter.encodeOpen : Delimiter → Char
  | .parenthesis => '('
  | .brace => '{'
  | .bracket => '['

/-- `Delimiter::encode_close`, genco-macros/src/ast.rs 35-43. -/
def Delimiter.encodeClose : Delimiter → Char
  | .parenthesis => ')'
  | .brace => '}'
  | .bracket => ']'

/-- `ControlKind`, genco-macros/src/ast.rs 93-98. -/
inductive ControlKind where
  | space
  | push
  | line
  deriving DecidableEq, Repr

/-- `Control::from_char`, genco-macros/src/ast.rs 108-124. -/
def ControlKind.fromChar : Char → Option ControlKind
  | ' ' => some .space
  | '\n' => some .line
  | '\r' => some .push
  | _ => none

/-- Why an expansion fails. -/
inductive Err where
  /-- `indentation_error`, genco-macros/src/encoder.rs 448-476: the column, and the
  column of the level it was compared with. -/
  | indentation (to column : Nat)
  /-- genco-macros/src/string_parser.rs 194-197. -/
  | lineBreak
  /-- The assertion and the subtraction in genco-macros/src/encoder.rs 405-407. -/
  | panic
  deriving DecidableEq, Repr

/-- A generated statement. `r` is the receiver. -/
inductive Stmt (ι E : Type) where
  /-- A call on the receiver with constant arguments. -/
  | call (c : Call ι)
  /-- `r.append(e);` -/
  | value (e : E)
  /-- `{ let b = &mut *r; content }`, or `{ content }` without binding. -/
  | scope (bound : Bool) (content : E)
  /-- `for pat in iter { body }` -/
  | forIn (pat iter : E) (body : List (Stmt ι E))
  /-- `{ let mut it = IntoIterator::into_iter(iter).peekable(); while let Some(pat) =
  it.next() { body if it.peek().is_some() { sep } } }` -/
  | joinIn (pat iter : E) (sep body : List (Stmt ι E))
  /-- `if c { t }` -/
  | ifThen (c : E) (t : List (Stmt ι E))
  /-- `if c { t } else { e }` -/
  | ifElse (c : E) (t e : List (Stmt ι E))
  /-- `match e { pat if guard => { block }, … }` -/
  | select (e : E) (arms : List (E × Option E × List (Stmt ι E)))
  /-- `let pat = e;` -/
  | bind (pat e : E)

/-- `Ast`, genco-macros/src/ast.rs 127-195. The arms of a match have no attributes:
`parse_match` looks for them in the wrong place (genco-macros/src/quote.rs 199), behind the
braces, see `Verif.Model.MacroParse`. `EvalIdent` and `Eval` give the same code. -/
inductive Ast (ι E : Type) where
  | tree (text : Str)
  | string (hasEval : Bool) (stream : List (Stmt ι E))
  | quoted (s : Str)
  | literal (s : Str)
  | delimiterOpen (d : Delimiter)
  | delimiterClose (d : Delimiter)
  | control (k : ControlKind)
  | eval (e : E)
  | scope (bound : Bool) (content : E)
  | loop (pat iter : E) (join : Option (List (Stmt ι E))) (stream : List (Stmt ι E))
  | condition (c : E) (thenBranch : List (Stmt ι E)) (elseBranch : Option (List (Stmt ι E)))
  | bind (pat e : E)
  | select (e : E) (arms : List (E × Option E × List (Stmt ι E)))

/-- `Encoder`, genco-macros/src/encoder.rs 12-38. `indents` has the top of the stack
first; spans are left out. -/
structure Enc (ι E : Type) where
  spanStart : Option Pos
  spanEnd : Option Pos
  /-- `StaticBuffer`, genco-macros/src/static_buffer.rs 6-9. -/
  itemBuffer : Str := []
  output : List (Stmt ι E) := []
  last : Option Cur := none
  lastStartColumn : Option Nat := none
  indents : List Nat := []
  /-- `Requirements`, genco-macros/src/requirements.rs 4-6. -/
  requirements : Bool := false

namespace Enc

variable {ι E : Type}

/-- `Encoder::new`, genco-macros/src/encoder.rs 41-57. -/
def new (spanStart spanEnd : Option Pos) : Enc ι E := { spanStart, spanEnd }

/-- `self.output.extend(…)`. -/
def extend (e : Enc ι E) (ss : List (Stmt ι E)) : Enc ι E := { e with output := e.output ++ ss }

/-- `StaticBuffer::flush` into the output, genco-macros/src/static_buffer.rs 31-39. -/
def flush (e : Enc ι E) : Enc ι E :=
  if e.itemBuffer = [] then e
  else { e.extend [.call (.append (.literal (.static e.itemBuffer)))] with itemBuffer := [] }

/-- `StaticBuffer::push_str` and `push`, genco-macros/src/static_buffer.rs 21-28. -/
def pushStr (e : Enc ι E) (s : Str) : Enc ι E := { e with itemBuffer := e.itemBuffer ++ s }

/-- The loop of `tokenize_whitespace` that closes levels, genco-macros/src/encoder.rs
417-437. -/
def unindents (to : Nat) (line : Bool) : List Nat → Except Err (List Nat × List (Stmt ι E))
  | [] => .ok ([], [])
  | column :: indents =>
    if column > to ∧ indents ≠ [] then do
      let (rest, out) ← unindents to line indents
      .ok (rest, .call .unindent :: (if line then [.call .line] else []) ++ out)
    else if column = to then
      .ok (indents, .call .unindent :: (if line then [.call .line] else []))
    else
      .error (.indentation to column)

/-- `Encoder::tokenize_whitespace`, genco-macros/src/encoder.rs 377-477. -/
def tokenizeWhitespace (e : Enc ι E) (start to : Pos) : Except Err (Enc ι E) :=
  if start = to then .ok e
  else if start.line = to.line then
    if start.column < to.column then .ok (e.flush.extend [.call .space]) else .ok e
  else
    let e := e.flush
    if to.line < start.line then .error .panic
    else
      let line : Bool := decide (to.line - start.line > 1)
      match e.lastStartColumn with
      | none => .ok e
      | some c =>
        let e := { e with lastStartColumn := none }
        if c < to.column then
          .ok { e.extend (.call .indent :: (if line then [.call .line] else [])) with
            indents := c :: e.indents }
        else if c > to.column then do
          let (indents, out) ← unindents to.column line e.indents
          .ok { e.extend out with indents := indents }
        else if line then .ok (e.extend [.call .line])
        else .ok (e.extend [.call .push])

/-- `Encoder::from`, genco-macros/src/encoder.rs 318-352. -/
def origin (e : Enc ι E) : Enc ι E × Option Pos :=
  match e.spanStart with
  | some s => ({ e with spanStart := none, lastStartColumn := some s.column }, some s)
  | none =>
    match e.last with
    | some last =>
      (if e.lastStartColumn = none then { e with lastStartColumn := some last.start.column } else e,
        some last.stop)
    | none => (e, none)

/-- `Encoder::step`, genco-macros/src/encoder.rs 133-143. -/
def step (e : Enc ι E) (next : Cur) : Except Err (Enc ι E) := do
  let e ← match e.origin with
    | (e, some start) => e.tokenizeWhitespace start next.start
    | (e, none) => .ok e
  .ok { e with last := some next }

/-- The `encode_*` functions, genco-macros/src/encoder.rs 145-316, as called by
`encode`. -/
def encodeAst (e : Enc ι E) : Ast ι E → Enc ι E
  -- `encode_literal`, 153-155
  | .tree text => e.pushStr text
  | .literal s => e.pushStr s
  -- 70-73 and `encode_string`, 157-167
  | .string hasEval stream =>
    { e with requirements := e.requirements || hasEval }.flush.extend
      (Stmt.call (.append (.openQuote hasEval)) :: stream ++ [Stmt.call (.append .closeQuote)])
  -- `encode_quoted`, 169-179
  | .quoted s => e.flush.extend [.call (.append (.openQuote false)),
      .call (.append (.literal (.static s))), .call (.append .closeQuote)]
  -- `encode_open_delimiter`, `encode_close_delimiter`, 145-151
  | .delimiterOpen d => e.pushStr [d.encodeOpen]
  | .delimiterClose d => e.pushStr [d.encodeClose]
  -- `encode_control`, 181-200
  | .control .space => e.flush.extend [.call .space]
  | .control .push => e.flush.extend [.call .push]
  | .control .line => e.flush.extend [.call .line]
  -- `encode_scope`, 202-215
  | .scope bound content => (if bound then e.flush else e).extend [.scope bound content]
  -- `encode_eval_ident`, `encode_eval`, 217-235
  | .eval x => e.flush.extend [.value x]
  -- `encode_repeat`, 237-268
  | .loop pat iter (some join) stream => e.flush.extend [.joinIn pat iter join stream]
  | .loop pat iter none stream => e.flush.extend [.forIn pat iter stream]
  -- `encode_condition`, 270-284
  | .condition c t none => e.flush.extend [.ifThen c t]
  | .condition c t (some f) => e.flush.extend [.ifElse c t f]
  -- `encode_match`, 286-308
  | .select x arms => e.flush.extend [.select x arms]
  -- `encode_let`, 310-316
  | .bind pat x => e.flush.extend [.bind pat x]

/-- `Encoder::encode`, genco-macros/src/encoder.rs 60-125. -/
def encode (e : Enc ι E) (cursor : Cur) (ast : Ast ι E) : Except Err (Enc ι E) := do
  let e ← e.step cursor
  .ok (e.encodeAst ast)

/-- `Encoder::finalize` and `into_output`, genco-macros/src/encoder.rs 128-131 and
355-373. The first loop runs at most once, as it takes its condition. -/
def intoOutput (e : Enc ι E) : Except Err (Bool × List (Stmt ι E)) := do
  let e ← match e.spanEnd with
    | none => .ok e
    | some to =>
      match { e with spanEnd := none }.origin with
      | (e, some start) => e.tokenizeWhitespace start to
      | (e, none) => .ok e
  let e := e.flush
  .ok (e.requirements, e.output ++ List.replicate e.indents.length (.call .unindent))

end Enc

mutual

/-- What one turn of the loop in `Quote::parse_inner` reads. -/
inductive Node (E : Type) where
  /-- A token that is no group and no string, with its text. -/
  | tree (cur : Cur) (text : Str)
  /-- `$$` -/
  | escape (cur : Cur)
  /-- `$[str](parts)`; `paren` is the place of the parentheses. -/
  | str (cur paren : Cur) (parts : List (Part E))
  /-- `$[c]` -/
  | control (cur : Cur) (k : ControlKind)
  /-- `"s"`, with the value of the string. -/
  | quoted (cur : Cur) (s : Str)
  /-- `$("s")` -/
  | literal (cur : Cur) (s : Str)
  /-- `$e` or `$(e)` -/
  | eval (cur : Cur) (e : E)
  /-- `$(ref b => content)`, not `bound` if `b` is `_`. -/
  | scope (cur : Cur) (bound : Bool) (content : E)
  /-- `$(for pat in iter => body)` -/
  | loop (cur : Cur) (pat iter : E) (body : List (Node E))
  /-- `$(for pat in iter join (sep) => body)`; `paren` is the place of the parentheses. -/
  | joined (cur : Cur) (pat iter : E) (paren : Cur) (sep body : List (Node E))
  /-- `$(if c => t)` -/
  | ifThen (cur : Cur) (c : E) (t : List (Node E))
  /-- `$(if c { t } else { e })` -/
  | ifElse (cur : Cur) (c : E) (t e : List (Node E))
  /-- `$(match e { arms })` -/
  | select (cur : Cur) (e : E) (arms : List (Arm E))
  /-- `$(let pat = e)` -/
  | bind (cur : Cur) (pat e : E)
  /-- A group. -/
  | group (cur : Cur) (d : Delimiter) (content : List (Node E))

/-- What one turn of the loop in `StringParser::parse` reads. -/
inductive Part (E : Type) where
  /-- `$$` -/
  | dollar (cur : Cur)
  /-- `$[const]("s")` -/
  | constant (cur : Cur) (s : Str)
  /-- `$[const](e)` -/
  | raw (cur : Cur) (e : E)
  /-- `$name` -/
  | ident (cur : Cur) (name : Str)
  /-- `$(content)`; `span` is what `content.span()` gives (genco-macros/src/string_parser.rs
  291), which is the place of the first token of the content. -/
  | stream (cur span : Cur) (content : List (Node E))
  /-- Another token tree, with the text `Display` gives for it. -/
  | tt (cur : Cur) (text : Str)

/-- An arm of a match. `paren` is the place of the parentheses if the block has them. -/
inductive Arm (E : Type) where
  | mk (pat : E) (guard : Option E) (paren : Option Cur) (block : List (Node E))

end

/-- `adjust_start`, genco-macros/src/quote.rs 64-69 and string_parser.rs 25-30. -/
def adjustStart (p : Pos) : Pos := ⟨p.line, p.column + 1⟩

/-- `adjust_end`, genco-macros/src/quote.rs 71-76 and string_parser.rs 32-37. -/
def adjustEnd (p : Pos) : Pos := ⟨p.line, p.column - 1⟩

/-- The encoder `Quote::parse` starts with, genco-macros/src/quote.rs 35-43, 57-77 and 81:
`Quote::new`, possibly followed by `with_span`. -/
def startEnc {ι E : Type} : Option Cur → Enc ι E
  | none => Enc.new none none
  | some c => Enc.new (some (adjustStart c.start)) (some (adjustEnd c.stop))

/-- The encoder of strings, genco-macros/src/string_parser.rs 39-47. -/
structure StrEnc (ι E : Type) where
  cursor : Option Pos
  buf : Str := []
  stream : List (Stmt ι E) := []
  hasEval : Bool := false

namespace StrEnc

variable {ι E : Type}

/-- `flush_whitespace`, genco-macros/src/string_parser.rs 187-207. `start` is always
given. -/
def flushWhitespace (e : StrEnc ι E) (start : Pos) (to : Option Pos) : Except Err (StrEnc ι E) :=
  match e.cursor with
  | none => .ok { e with cursor := to }
  | some cursor =>
    if cursor.line ≠ start.line then .error .lineBreak
    else .ok { e with
      buf := e.buf ++ List.replicate (start.column - cursor.column) ' '
      cursor := to }

/-- `flush`, genco-macros/src/string_parser.rs 161-184. The count is never used. -/
def flush (e : StrEnc ι E) (start : Pos) (to : Option Pos) : Except Err (StrEnc ι E) := do
  let e ← e.flushWhitespace start to
  if e.buf = [] then .ok e
  else .ok { e with stream := e.stream ++ [.call (.append (.literal (.static e.buf)))], buf := [] }

/-- `encode_char`, `encode_str` and `extend_tt`, genco-macros/src/string_parser.rs 69-86 and
149-158. -/
def encodeStr (e : StrEnc ι E) (s : Str) (start to : Pos) : Except Err (StrEnc ι E) := do
  let e ← e.flushWhitespace start (some to)
  .ok { e with buf := e.buf ++ s }

/-- `eval_stream` and `eval_ident`, genco-macros/src/string_parser.rs 89-130. -/
def evalStream (e : StrEnc ι E) (ss : List (Stmt ι E)) (start to : Pos) : Except Err (StrEnc ι E) := do
  let e ← e.flush start (some to)
  .ok { e with
    stream := e.stream ++ .call (.append .openEval) :: ss ++ [.call (.append .closeEval)]
    hasEval := true }

/-- `raw_expr`, genco-macros/src/string_parser.rs 133-147. -/
def rawExpr (e : StrEnc ι E) (x : E) (start to : Pos) : Except Err (StrEnc ι E) := do
  let e ← e.flush start (some to)
  .ok { e with stream := e.stream ++ [.value x] }

end StrEnc

section Parse

variable {ι E : Type}

mutual

/-- The loop of `Quote::parse_inner`, genco-macros/src/quote.rs 336-472. -/
def nodes (e : Enc ι E) : List (Node E) → Except Err (Enc ι E)
  | [] => .ok e
  | n :: ns => do nodes (← node e n) ns

/-- One turn of the loop. -/
def node (e : Enc ι E) : Node E → Except Err (Enc ι E)
  -- 466-468
  | .tree cur text => e.encode cur (.tree text)
  -- 348-357
  | .escape cur => e.encode cur (.tree ['$'])
  -- 367-382 and `StringParser::parse`, genco-macros/src/string_parser.rs 218-309
  | .str cur paren ps => do
    let (s, r) ← parts { cursor := some (adjustStart paren.start) } false ps
    let s ← s.flush (adjustEnd paren.stop) none
    { e with requirements := e.requirements || r }.encode cur (.string s.hasEval s.stream)
  -- 383-400
  | .control cur k => e.encode cur (.control k)
  -- 419-424
  | .quoted cur s => e.encode cur (.quoted s)
  -- `parse_expression`, 288-334
  | .literal cur s => e.encode cur (.literal s)
  | .eval cur x => e.encode cur (.eval x)
  -- `parse_scope`, 262-286
  | .scope cur bound content => e.encode cur (.scope bound content)
  -- `parse_loop`, 138-186
  | .loop cur pat iter body => do
    let (r, stream) ← (← nodes (startEnc none) body).intoOutput
    { e with requirements := e.requirements || r }.encode cur (.loop pat iter none stream)
  | .joined cur pat iter paren sep body => do
    let (r, join) ← (← nodes (startEnc (some paren)) sep).intoOutput
    let (r', stream) ← (← nodes (startEnc none) body).intoOutput
    { e with requirements := e.requirements || (r || r') }.encode cur (.loop pat iter (some join) stream)
  -- `parse_condition`, 87-135
  | .ifThen cur c t => do
    let (r, stream) ← (← nodes (startEnc none) t).intoOutput
    { e with requirements := e.requirements || r }.encode cur (.condition c stream none)
  | .ifElse cur c t f => do
    let (r, stream) ← (← nodes (startEnc none) t).intoOutput
    let (r', stream') ← (← nodes (startEnc none) f).intoOutput
    { e with requirements := e.requirements || (r || r') }.encode cur (.condition c stream (some stream'))
  -- `parse_match`, 188-245
  | .select cur x as => do
    let (r, out) ← arms as
    { e with requirements := e.requirements || r }.encode cur (.select x out)
  -- `parse_let`, 247-259
  | .bind cur pat x => e.encode cur (.bind pat x)
  -- 427-464 and `parse_group`, 474-491
  | .group cur d content => do
    let e ← e.encode cur.firstCharacter (.delimiterOpen d)
    let e ← nodes e content
    e.encode cur.lastCharacter (.delimiterClose d)

/-- The loop of `parse_match`, genco-macros/src/quote.rs 195-242. -/
def arms : List (Arm E) → Except Err (Bool × List (E × Option E × List (Stmt ι E)))
  | [] => .ok (false, [])
  | .mk pat guard paren block :: as => do
    let (r, stream) ← (← nodes (startEnc paren) block).intoOutput
    let (r', out) ← arms as
    .ok (r || r', (pat, guard, stream) :: out)

/-- The loop of `StringParser::parse`, genco-macros/src/string_parser.rs 238-305. -/
def parts (e : StrEnc ι E) (req : Bool) : List (Part E) → Except Err (StrEnc ι E × Bool)
  | [] => .ok (e, req)
  | .dollar cur :: ps => do parts (← e.encodeStr ['$'] cur.start cur.stop) req ps
  | .constant cur s :: ps => do parts (← e.encodeStr s cur.start cur.stop) req ps
  | .raw cur x :: ps => do parts (← e.rawExpr x cur.start cur.stop) req ps
  | .ident cur name :: ps => do
    parts (← e.evalStream [.call (.append (.literal (.static name)))] cur.start cur.stop) req ps
  | .stream cur span content :: ps => do
    let (r, stream) ← (← nodes (startEnc (some span)) content).intoOutput
    parts (← e.evalStream stream cur.start cur.stop) (req || r) ps
  | .tt cur text :: ps => do parts (← e.encodeStr text cur.start cur.stop) req ps

end

/-- `Quote::parse`, genco-macros/src/quote.rs 80-84: what a macro generates, and if the
language has to support interpolation. -/
def quote (span : Option Cur) (ns : List (Node E)) : Except Err (Bool × List (Stmt ι E)) := do
  (← nodes (startEnc span) ns).intoOutput

end Parse

/-! ## Meaning of the generated code -/

/-- Meaning of the Rust code copied to the output. `Env` is what variables are bound to. -/
structure Host (ι E Env : Type) where
  /-- Calls made by `r.append(e)`. -/
  value : Env → E → List (Call ι)
  /-- Calls made by statements on the bound receiver. -/
  scope : Env → E → List (Call ι)
  /-- The pattern bound to the elements of the iterator. The pattern takes every element. -/
  iter : Env → E → E → List Env
  /-- What variables mean if the condition holds: `if let` binds variables. -/
  test : Env → E → Option Env
  /-- The value matched with a pattern with guard. -/
  pick : Env → E → E → Option E → Option Env
  bind : Env → E → E → Env

section Run

variable {ι E Env : Type} (H : Host ι E Env)

/-- What variables mean behind the statements of a block. -/
def leave (ρ : Env) : List (Stmt ι E) → Env
  | [] => ρ
  | .bind pat e :: ss => leave (H.bind ρ pat e) ss
  | _ :: ss => leave ρ ss

/-- The loop of the code generated for joined loops, genco-macros/src/encoder.rs 248-258: the
iterator is the list of what is left. -/
def peekLoop (body sep : Env → List (Call ι)) : List Env → List (Call ι)
  | [] => []
  | x :: it => body x ++ (if it.head?.isSome then sep x else []) ++ peekLoop body sep it

mutual

/-- The calls a block makes on the receiver. -/
def runBlock (ρ : Env) : List (Stmt ι E) → List (Call ι)
  | [] => []
  | s :: ss => (runStmt ρ s).2 ++ runBlock (runStmt ρ s).1 ss

/-- The calls a statement makes, and the environment after it. Code in a scope without
binding cannot name the receiver. -/
def runStmt (ρ : Env) : Stmt ι E → Env × List (Call ι)
  | .call c => (ρ, [c])
  | .value e => (ρ, H.value ρ e)
  | .scope bound content => (ρ, if bound then H.scope ρ content else [])
  | .forIn pat iter body => (ρ, (H.iter ρ pat iter).flatMap (fun ρ' => runBlock ρ' body))
  | .joinIn pat iter sep body =>
    (ρ, peekLoop (fun ρ' => runBlock ρ' body) (fun ρ' => runBlock (leave H ρ' body) sep) (H.iter ρ pat iter))
  | .ifThen c t => (ρ, (H.test ρ c).elim [] (fun ρ' => runBlock ρ' t))
  | .ifElse c t e => (ρ, (H.test ρ c).elim (runBlock ρ e) (fun ρ' => runBlock ρ' t))
  | .select e as => (ρ, runArms ρ e as)
  | .bind pat e => (H.bind ρ pat e, [])

/-- `match`: the first arm whose pattern and guard take the value, genco-macros/src/encoder.rs 286-308. -/
def runArms (ρ : Env) (e : E) : List (E × Option E × List (Stmt ι E)) → List (Call ι)
  | [] => []
  | a :: as =>
    match H.pick ρ e a.1 a.2.1 with
    | some ρ' => runArm ρ' a
    | none => runArms ρ e as

/-- The block of an arm. -/
def runArm (ρ : Env) : E × Option E × List (Stmt ι E) → List (Call ι)
  | (_, _, b) => runBlock ρ b

end

end Run

end Genco.Macro
