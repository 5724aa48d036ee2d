import Verif.Model.Macro

/-!
# Parsing of macro input

From token trees to the nodes of `Model/Macro.lean`. What `syn` does is a parameter:
parsers for expressions and patterns, and which words are keywords. `none` is a compile
error. The first number bounds the depth of recursion; more never changes a result
(`parseAll_mono`), and what is accepted is what is accepted with some bound.

Left out: groups without delimiters, and attributes behind the braces of a `match`, which
`parse_match` takes for attributes of the first arm (genco-macros/src/quote.rs 199). For these,
`Model/Attributes.lean` has all of `parse_match`.
-/

set_option autoImplicit false

namespace Genco.Macro

/-- A token tree with its place. -/
inductive TT where
  | ident (cur : Cur) (name : Str)
  /-- `joint` if the next token is a punctuation directly behind. -/
  | punct (cur : Cur) (c : Char) (joint : Bool)
  /-- A string literal with its value. -/
  | str (cur : Cur) (value : Str) (text : Str)
  /-- A character literal with its value. -/
  | char (cur : Cur) (value : Char) (text : Str)
  /-- Another literal. -/
  | lit (cur : Cur) (text : Str)
  | group (cur : Cur) (d : Delimiter) (content : List TT)

/-- `buf.cursor(tt.span())`. -/
def TT.cur : TT → Cur
  | .ident cur _ => cur
  | .punct cur _ _ => cur
  | .str cur _ _ => cur
  | .char cur _ _ => cur
  | .lit cur _ => cur
  | .group cur _ _ => cur

/-- `Buf::join`, genco-macros/src/fake.rs 115-121. -/
def join (a b : Cur) : Cur := ⟨a.start, b.stop⟩

/-- Where `syn` is asked. A parser gives the tokens it has taken and the rest. -/
structure Syn where
  /-- `Expr::parse_without_eager_brace`. -/
  expr : List TT → Option (List TT × List TT)
  /-- `Expr::parse`. -/
  fullExpr : List TT → Option (List TT × List TT)
  /-- `Pat::parse_single`. -/
  pat : List TT → Option (List TT × List TT)
  /-- `Pat::parse_multi_with_leading_vert`. -/
  patMulti : List TT → Option (List TT × List TT)
  /-- Words that are no `syn::Ident`. -/
  keyword : Str → Bool
  /-- `Display` of a token tree. -/
  display : TT → Str

/-- `Token![=>]`. -/
def fatArrow : List TT → Option (List TT)
  | .punct _ '=' true :: .punct _ '>' _ :: r => some r
  | _ => none

/-- A parser that has to take all. -/
def whole (f : List TT → Option (List TT × List TT)) (ts : List TT) : Option (List TT) :=
  match f ts with
  | some (e, []) => some e
  | _ => none

/-- The tokens begin with this word. -/
def startsWith (w : String) : List TT → Bool
  | .ident _ name :: _ => name == w.toList
  | _ => false

/-- `input.peek(Token![,])`. -/
def peekComma : TT → Bool
  | .punct _ c _ => c == ','
  | _ => false

/-- `if body.peek(Token![,])`, genco-macros/src/quote.rs 239-241. -/
def dropComma : List TT → List TT
  | [] => []
  | t :: r => if peekComma t then r else t :: r

/-- The guard of an arm, genco-macros/src/quote.rs 202-208. -/
def guardOf (S : Syn) (ts : List TT) : Option (Option (List TT) × List TT) :=
  if startsWith "if" ts then (S.fullExpr ts.tail).map (fun p => (some p.1, p.2)) else some (none, ts)

/-- `ParseBuffer::span` of the inside of a pair of parentheses: the first token, of a group the
opening delimiter; the closing parenthesis if there is none. -/
def firstSpan (paren : Cur) : List TT → Cur
  | [] => paren.lastCharacter
  | .group cur _ _ :: _ => cur.firstCharacter
  | t :: _ => t.cur

/-- `parse_scope`, genco-macros/src/quote.rs 262-286, behind `ref`. -/
def parseScope (S : Syn) (cur : Cur) (ts : List TT) : Option (Node (List TT)) :=
  match ts with
  | .ident _ name :: r =>
    if name = ['_'] ∨ S.keyword name = false then
      match r with
      | [.group _ .brace content] => some (.scope cur (name != ['_']) content)
      | .group _ .brace _ :: _ => none
      | r => (fatArrow r).map (fun content => .scope cur (name != ['_']) content)
    else none
  | _ => none

/-- `parse_let`, genco-macros/src/quote.rs 247-259, behind `let`. -/
def parseLet (S : Syn) (cur : Cur) (ts : List TT) : Option (Node (List TT)) := do
  let (pat, r) ← S.pat ts
  match r with
  | .punct _ '=' _ :: r => do
    let e ← whole S.expr r
    some (.bind cur pat e)
  | _ => none

mutual

/-- `Quote::parse_inner`, genco-macros/src/quote.rs 336-472: the nodes, and what is left behind
a comma that ends the input. -/
def parseInner (S : Syn) : Nat → Bool → List TT → Option (List (Node (List TT)) × List TT)
  | 0, _, _ => none
  | n + 1, u, ts =>
    match ts with
    | [] => some ([], [])
    | t :: r =>
      -- 343-345
      if u && peekComma t then some ([], t :: r)
      else do
        let (node, r) ← parseOne S n (t :: r)
        let (ns, rest) ← parseInner S n u r
        some (node :: ns, rest)

/-- `Quote::parse`, genco-macros/src/quote.rs 80-84, where all tokens have to be taken. -/
def parseAll (S : Syn) : Nat → List TT → Option (List (Node (List TT)))
  | 0, _ => none
  | n + 1, ts => do
    let (ns, _) ← parseInner S n false ts
    some ns

/-- One turn of the loop, genco-macros/src/quote.rs 347-468. -/
def parseOne (S : Syn) : Nat → List TT → Option (Node (List TT) × List TT)
  | 0, _ => none
  | n + 1, ts =>
    match ts with
    | [] => none
    -- 347-357
    | .punct a '$' _ :: .punct b '$' _ :: r => some (.escape (join a b), r)
    -- 359-410
    | .punct a '$' _ :: .group b .bracket name :: r => parseFunction S n a b name r
    -- 412-417
    | .punct a '$' _ :: .group p .parenthesis content :: r => do
      let node ← parseExpression S n (join a p) content
      some (node, r)
    | .punct a '$' _ :: .ident b name :: r =>
      if S.keyword name then some (.tree a ['$'], .ident b name :: r)
      else some (.eval (join a b) [.ident b name], r)
    -- 419-424
    | .str cur s _ :: r => some (.quoted cur s, r)
    -- 426-464
    | .group cur d content :: r => do
      let ns ← parseAll S n content
      some (.group cur d ns, r)
    -- 466-468
    | .ident cur name :: r => some (.tree cur name, r)
    | .punct cur c _ :: r => some (.tree cur [c], r)
    | .char cur _ text :: r => some (.tree cur text, r)
    | .lit cur text :: r => some (.tree cur text, r)

/-- `$[name](content)`, genco-macros/src/quote.rs 359-407 and `parse_internal_function`, 502-537. -/
def parseFunction (S : Syn) : Nat → Cur → Cur → List TT → List TT → Option (Node (List TT) × List TT)
  | 0, _, _, _, _ => none
  | n + 1, a, b, name, r =>
    match name, r with
    | [.char _ c _], r =>
      match ControlKind.fromChar c, r with
      | some _, .group _ .parenthesis _ :: _ => none
      | some k, r => some (.control (join a b) k, r)
      | none, _ => none
    | [.ident _ w], .group p .parenthesis content :: r =>
      if w = "str".toList then do
        let ps ← parseParts S n content
        some (.str (join a p) p ps, r)
      else none
    | _, _ => none

/-- `parse_expression`, genco-macros/src/quote.rs 288-334, inside the parentheses. -/
def parseExpression (S : Syn) : Nat → Cur → List TT → Option (Node (List TT))
  | 0, _, _ => none
  | n + 1, cur, ts =>
    if startsWith "if" ts then parseCondition S n cur ts.tail
    else if startsWith "for" ts then parseLoop S n cur ts.tail
    else if startsWith "match" ts then do
      let (e, r) ← S.expr ts.tail
      match r with
      | [.group _ .brace body] => do
        let as ← parseArms S n body
        some (.select cur e as)
      | _ => none
    else if startsWith "let" ts then parseLet S cur ts.tail
    else if startsWith "ref" ts then parseScope S cur ts.tail
    else
      match ts with
      | [.str _ s _] => some (.literal cur s)
      | ts => (whole S.fullExpr ts).map (.eval cur)

/-- `parse_condition`, genco-macros/src/quote.rs 87-135, behind `if`. -/
def parseCondition (S : Syn) : Nat → Cur → List TT → Option (Node (List TT))
  | 0, _, _ => none
  | n + 1, cur, ts => do
    let (c, r) ← S.expr ts
    match fatArrow r with
    | some r => do
      let t ← parseAll S n r
      some (.ifThen cur c t)
    | none =>
      match r with
      | [.group _ .brace content] => do
        let t ← parseAll S n content
        some (.ifThen cur c t)
      | [.group _ .brace content, .ident _ w, .group _ .brace content'] =>
        if w = "else".toList then do
          let t ← parseAll S n content
          let e ← parseAll S n content'
          some (.ifElse cur c t e)
        else none
      | _ => none

/-- `parse_loop`, genco-macros/src/quote.rs 138-186, behind `for`. -/
def parseLoop (S : Syn) : Nat → Cur → List TT → Option (Node (List TT))
  | 0, _, _ => none
  | n + 1, cur, ts => do
    let (pat, r) ← S.pat ts
    if startsWith "in" r then do
      let (iter, r) ← S.expr r.tail
      if startsWith "join" r then
        match r.tail with
        | .group p .parenthesis content :: r => do
          let sep ← parseAll S n content
          let body ← parseBody S n r
          some (.joined cur pat iter p sep body)
        | _ => none
      else do
        let body ← parseBody S n r
        some (.loop cur pat iter body)
    else none

/-- The body of a loop, genco-macros/src/quote.rs 164-176. -/
def parseBody (S : Syn) : Nat → List TT → Option (List (Node (List TT)))
  | 0, _ => none
  | n + 1, r =>
    match fatArrow r with
    | some r => parseAll S n r
    | none =>
      match r with
      | [.group _ .brace content] => parseAll S n content
      | _ => none

/-- The arms of `parse_match`, genco-macros/src/quote.rs 195-242. -/
def parseArms (S : Syn) : Nat → List TT → Option (List (Arm (List TT)))
  | 0, _ => none
  | _ + 1, [] => some []
  | n + 1, ts => do
    let (pat, r) ← S.patMulti ts
    let (guard, r) ← guardOf S r
    let r ← fatArrow r
    match r with
    | .group _ .brace content :: r => do
      let block ← parseAll S n content
      let as ← parseArms S n (dropComma r)
      some (.mk pat guard none block :: as)
    | .group p .parenthesis content :: r => do
      let block ← parseAll S n content
      let as ← parseArms S n (dropComma r)
      some (.mk pat guard (some p) block :: as)
    | r => do
      let (block, r) ← parseInner S n true r
      let as ← parseArms S n (dropComma r)
      some (.mk pat guard none block :: as)

/-- `StringParser::parse`, genco-macros/src/string_parser.rs 238-305. -/
def parseParts (S : Syn) : Nat → List TT → Option (List (Part (List TT)))
  | 0, _ => none
  | n + 1, ts =>
    match ts with
    | [] => some []
    -- 239-246
    | .punct a '$' _ :: .punct b '$' _ :: r => do
      let ps ← parseParts S n r
      some (.dollar (join a b) :: ps)
    -- 249-274
    | .punct a '$' _ :: .group _ .bracket [.ident _ w] :: .group p .parenthesis content :: r =>
      if w = "const".toList then do
        let ps ← parseParts S n r
        match content with
        | [.str _ s _] => some (.constant (join a p) s :: ps)
        | ts => do
          let e ← whole S.fullExpr ts
          some (.raw (join a p) e :: ps)
      else none
    | .punct _ '$' _ :: .group _ .bracket _ :: _ => none
    -- 287-296
    | .punct a '$' _ :: .group p .parenthesis content :: r => do
      let ns ← parseAll S n content
      let ps ← parseParts S n r
      some (.stream (join a p) (firstSpan p content) ns :: ps)
    -- 276-285
    | .punct a '$' _ :: .ident b name :: r =>
      if S.keyword name then none
      else do
        let ps ← parseParts S n r
        some (.ident (join a b) name :: ps)
    | .punct _ '$' _ :: _ => none
    -- 302-304
    | t :: r => do
      let ps ← parseParts S n r
      some (.tt t.cur (S.display t) :: ps)

end

/-- `QuoteIn::parse`, genco-macros/src/quote_in.rs 12-20: the receiver and the nodes. The input
of `quote!` and `quote_fn!` is read by `parseAll` (genco-macros/src/lib.rs 51-53, quote_fn.rs
15-16). -/
def parseQuoteIn (S : Syn) (n : Nat) (ts : List TT) : Option (List TT × List (Node (List TT))) := do
  let (e, r) ← S.fullExpr ts
  let r ← fatArrow r
  let ns ← parseAll S n r
  some (e, ns)

/-! ## The parser that says why it does not give a result

The functions above give `none` both where the code gives an error, and where they have gone on for
too many rounds. These are the same functions with the two kept apart. -/

/-- What a parser ends with. -/
inductive Outcome (α : Type) where
  | done (a : α)
  | refused
  | unfinished

namespace Outcome

variable {α β : Type}

/-- The operator `?` of the Rust code. -/
def bind : Outcome α → (α → Outcome β) → Outcome β
  | done a, f => f a
  | refused, _ => refused
  | unfinished, _ => unfinished

instance : Monad Outcome where
  pure := done
  bind := bind

/-- A result, if there is one. -/
def result : Outcome α → Option α
  | done a => some a
  | _ => none

end Outcome

/-- Parsers that always end. -/
def opt {α : Type} : Option α → Outcome α
  | some a => .done a
  | none => .refused

mutual

/-- `Quote::parse_inner`, genco-macros/src/quote.rs 336-472: the nodes, and what is left behind
a comma that ends the input. -/
def readInner (S : Syn) : Nat → Bool → List TT → Outcome (List (Node (List TT)) × List TT)
  | 0, _, _ => .unfinished
  | n + 1, u, ts =>
    match ts with
    | [] => .done ([], [])
    | t :: r =>
      -- 343-345
      if u && peekComma t then .done ([], t :: r)
      else do
        let (node, r) ← readOne S n (t :: r)
        let (ns, rest) ← readInner S n u r
        .done (node :: ns, rest)

/-- `Quote::parse`, genco-macros/src/quote.rs 80-84, where all tokens have to be taken. -/
def readAll (S : Syn) : Nat → List TT → Outcome (List (Node (List TT)))
  | 0, _ => .unfinished
  | n + 1, ts => do
    let (ns, _) ← readInner S n false ts
    .done ns

/-- One turn of the loop, genco-macros/src/quote.rs 347-468. -/
def readOne (S : Syn) : Nat → List TT → Outcome (Node (List TT) × List TT)
  | 0, _ => .unfinished
  | n + 1, ts =>
    match ts with
    | [] => .refused
    -- 347-357
    | .punct a '$' _ :: .punct b '$' _ :: r => .done (.escape (join a b), r)
    -- 359-410
    | .punct a '$' _ :: .group b .bracket name :: r => readFunction S n a b name r
    -- 412-417
    | .punct a '$' _ :: .group p .parenthesis content :: r => do
      let node ← readExpression S n (join a p) content
      .done (node, r)
    | .punct a '$' _ :: .ident b name :: r =>
      if S.keyword name then .done (.tree a ['$'], .ident b name :: r)
      else .done (.eval (join a b) [.ident b name], r)
    -- 419-424
    | .str cur s _ :: r => .done (.quoted cur s, r)
    -- 426-464
    | .group cur d content :: r => do
      let ns ← readAll S n content
      .done (.group cur d ns, r)
    -- 466-468
    | .ident cur name :: r => .done (.tree cur name, r)
    | .punct cur c _ :: r => .done (.tree cur [c], r)
    | .char cur _ text :: r => .done (.tree cur text, r)
    | .lit cur text :: r => .done (.tree cur text, r)

/-- `$[name](content)`, genco-macros/src/quote.rs 359-407 and `parse_internal_function`, 502-537. -/
def readFunction (S : Syn) : Nat → Cur → Cur → List TT → List TT → Outcome (Node (List TT) × List TT)
  | 0, _, _, _, _ => .unfinished
  | n + 1, a, b, name, r =>
    match name, r with
    | [.char _ c _], r =>
      match ControlKind.fromChar c, r with
      | some _, .group _ .parenthesis _ :: _ => .refused
      | some k, r => .done (.control (join a b) k, r)
      | none, _ => .refused
    | [.ident _ w], .group p .parenthesis content :: r =>
      if w = "str".toList then do
        let ps ← readParts S n content
        .done (.str (join a p) p ps, r)
      else .refused
    | _, _ => .refused

/-- `parse_expression`, genco-macros/src/quote.rs 288-334, inside the parentheses. -/
def readExpression (S : Syn) : Nat → Cur → List TT → Outcome (Node (List TT))
  | 0, _, _ => .unfinished
  | n + 1, cur, ts =>
    if startsWith "if" ts then readCondition S n cur ts.tail
    else if startsWith "for" ts then readLoop S n cur ts.tail
    else if startsWith "match" ts then do
      let (e, r) ← opt (S.expr ts.tail)
      match r with
      | [.group _ .brace body] => do
        let as ← readArms S n body
        .done (.select cur e as)
      | _ => .refused
    else if startsWith "let" ts then opt (parseLet S cur ts.tail)
    else if startsWith "ref" ts then opt (parseScope S cur ts.tail)
    else
      match ts with
      | [.str _ s _] => .done (.literal cur s)
      | ts => opt ((whole S.fullExpr ts).map (.eval cur))

/-- `parse_condition`, genco-macros/src/quote.rs 87-135, behind `if`. -/
def readCondition (S : Syn) : Nat → Cur → List TT → Outcome (Node (List TT))
  | 0, _, _ => .unfinished
  | n + 1, cur, ts => do
    let (c, r) ← opt (S.expr ts)
    match fatArrow r with
    | some r => do
      let t ← readAll S n r
      .done (.ifThen cur c t)
    | none =>
      match r with
      | [.group _ .brace content] => do
        let t ← readAll S n content
        .done (.ifThen cur c t)
      | [.group _ .brace content, .ident _ w, .group _ .brace content'] =>
        if w = "else".toList then do
          let t ← readAll S n content
          let e ← readAll S n content'
          .done (.ifElse cur c t e)
        else .refused
      | _ => .refused

/-- `parse_loop`, genco-macros/src/quote.rs 138-186, behind `for`. -/
def readLoop (S : Syn) : Nat → Cur → List TT → Outcome (Node (List TT))
  | 0, _, _ => .unfinished
  | n + 1, cur, ts => do
    let (pat, r) ← opt (S.pat ts)
    if startsWith "in" r then do
      let (iter, r) ← opt (S.expr r.tail)
      if startsWith "join" r then
        match r.tail with
        | .group p .parenthesis content :: r => do
          let sep ← readAll S n content
          let body ← readBody S n r
          .done (.joined cur pat iter p sep body)
        | _ => .refused
      else do
        let body ← readBody S n r
        .done (.loop cur pat iter body)
    else .refused

/-- The body of a loop, genco-macros/src/quote.rs 164-176. -/
def readBody (S : Syn) : Nat → List TT → Outcome (List (Node (List TT)))
  | 0, _ => .unfinished
  | n + 1, r =>
    match fatArrow r with
    | some r => readAll S n r
    | none =>
      match r with
      | [.group _ .brace content] => readAll S n content
      | _ => .refused

/-- The arms of `parse_match`, genco-macros/src/quote.rs 195-242. -/
def readArms (S : Syn) : Nat → List TT → Outcome (List (Arm (List TT)))
  | 0, _ => .unfinished
  | _ + 1, [] => .done []
  | n + 1, ts => do
    let (pat, r) ← opt (S.patMulti ts)
    let (guard, r) ← opt (guardOf S r)
    let r ← opt (fatArrow r)
    match r with
    | .group _ .brace content :: r => do
      let block ← readAll S n content
      let as ← readArms S n (dropComma r)
      .done (.mk pat guard none block :: as)
    | .group p .parenthesis content :: r => do
      let block ← readAll S n content
      let as ← readArms S n (dropComma r)
      .done (.mk pat guard (some p) block :: as)
    | r => do
      let (block, r) ← readInner S n true r
      let as ← readArms S n (dropComma r)
      .done (.mk pat guard none block :: as)

/-- `StringParser::parse`, genco-macros/src/string_parser.rs 238-305. -/
def readParts (S : Syn) : Nat → List TT → Outcome (List (Part (List TT)))
  | 0, _ => .unfinished
  | n + 1, ts =>
    match ts with
    | [] => .done []
    -- 239-246
    | .punct a '$' _ :: .punct b '$' _ :: r => do
      let ps ← readParts S n r
      .done (.dollar (join a b) :: ps)
    -- 249-274
    | .punct a '$' _ :: .group _ .bracket [.ident _ w] :: .group p .parenthesis content :: r =>
      if w = "const".toList then do
        let ps ← readParts S n r
        match content with
        | [.str _ s _] => .done (.constant (join a p) s :: ps)
        | ts => do
          let e ← opt (whole S.fullExpr ts)
          .done (.raw (join a p) e :: ps)
      else .refused
    | .punct _ '$' _ :: .group _ .bracket _ :: _ => .refused
    -- 287-296
    | .punct a '$' _ :: .group p .parenthesis content :: r => do
      let ns ← readAll S n content
      let ps ← readParts S n r
      .done (.stream (join a p) (firstSpan p content) ns :: ps)
    -- 276-285
    | .punct a '$' _ :: .ident b name :: r =>
      if S.keyword name then .refused
      else do
        let ps ← readParts S n r
        .done (.ident (join a b) name :: ps)
    | .punct _ '$' _ :: _ => .refused
    -- 302-304
    | t :: r => do
      let ps ← readParts S n r
      .done (.tt t.cur (S.display t) :: ps)

end

end Genco.Macro
