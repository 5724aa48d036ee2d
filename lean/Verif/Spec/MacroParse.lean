import Verif.Model.MacroParse
import Verif.Spec.Macro

/-!
# The language of the macros

A grammar: which token trees are which nodes, one rule for each form in the
documentation. Rust expressions and patterns are what the parsers of `syn` take.
-/

set_option autoImplicit false

namespace Genco.Spec.MacroFile

open Genco.Macro

/-! ## Quoted tokens -/

/-- A token that stands for itself, with its text. -/
def wordOf : TT → Option Str
  | .ident _ name => some name
  | .punct _ c _ => if c = '$' then none else some [c]
  | .char _ _ text => some text
  | .lit _ text => some text
  | .str .. => none
  | .group .. => none

def opener : Delimiter → Char
  | .parenthesis => '('
  | .brace => '{'
  | .bracket => '['

def closer : Delimiter → Char
  | .parenthesis => ')'
  | .brace => '}'
  | .bracket => ']'

mutual

/-- Token trees as they are read from left to right: delimiters are tokens of one character,
and strings are quoted. -/
def spelled : List TT → List (Node (List TT))
  | [] => []
  | t :: ts => spelledOne t ++ spelled ts

def spelledOne : TT → List (Node (List TT))
  | .ident cur name => [.tree cur name]
  | .punct cur c _ => [.tree cur [c]]
  | .str cur s _ => [.quoted cur s]
  | .char cur _ text => [.tree cur text]
  | .lit cur text => [.tree cur text]
  | .group cur d content =>
    .tree ⟨cur.start, ⟨cur.start.line, cur.start.column + 1⟩⟩ [opener d] :: spelled content ++
      [.tree ⟨⟨cur.stop.line, cur.stop.column - 1⟩, cur.stop⟩ [closer d]]

end

mutual

/-- There is a dollar somewhere. -/
def dollars : List TT → Bool
  | [] => false
  | t :: ts => dollarIn t || dollars ts

def dollarIn : TT → Bool
  | .punct _ c _ => c == '$'
  | .group _ _ content => dollars content
  | _ => false

end

mutual

/-- With every dollar doubled. The two share the place of the one, divided at `mid`. -/
def doubled (mid : Cur → Pos) : List TT → List TT
  | [] => []
  | t :: ts => doubledOne mid t ++ doubled mid ts

def doubledOne (mid : Cur → Pos) : TT → List TT
  | .punct cur c j =>
    if c = '$' then [.punct ⟨cur.start, mid cur⟩ '$' true, .punct ⟨mid cur, cur.stop⟩ '$' j] else [.punct cur c j]
  | .group cur d content => [.group cur d (doubled mid content)]
  | t => [t]

end

/-! ## Grammar -/

/-- What is read as what. -/
inductive Form where
  /-- Input of a macro, or a body. -/
  | nodes (ts : List TT) (ns : List (Node (List TT)))
  /-- Between the parentheses of `$(…)`, which is at `cur`. -/
  | inside (cur : Cur) (ts : List TT) (n : Node (List TT))
  /-- Behind `=>` or between braces. -/
  | body (ts : List TT) (ns : List (Node (List TT)))
  /-- Arms of a match. -/
  | arms (ts : List TT) (as : List (Arm (List TT)))
  /-- Between the parentheses of `$[str](…)`. -/
  | parts (ts : List TT) (ps : List (Part (List TT)))

def isComma : TT → Bool
  | .punct _ c _ => c == ','
  | _ => false

/-- A dollar before these tokens means nothing. -/
def Alone (S : Syn) : List TT → Prop
  | [] => True
  | .punct _ c _ :: _ => c ≠ '$'
  | .group _ d _ :: _ => d = .brace
  | .ident _ name :: _ => S.keyword name = true
  | _ => True

def isParen : TT → Bool
  | .group _ d _ => d == .parenthesis
  | _ => false

def isBrace : TT → Bool
  | .group _ d _ => d == .brace
  | _ => false

/-- Begins with one of those. -/
def begins (f : TT → Bool) (ts : List TT) : Bool := ts.head?.any f

/-- Is the word. -/
def isWord (w : String) : TT → Bool
  | .ident _ name => name == w.toList
  | _ => false

/-- One of the words `$(…)` may begin with. -/
def isLead (t : TT) : Bool :=
  isWord "if" t || isWord "for" t || isWord "match" t || isWord "let" t || isWord "ref" t

/-- `=>` -/
def arrow (a b : Cur) (j : Bool) : List TT := [.punct a '=' true, .punct b '>' j]

/-- From the start of the first to the end of the second. -/
def through (a b : Cur) : Cur := ⟨a.start, b.stop⟩

/-- The tokens behind a pattern: with a guard or without, and what follows. -/
def Guarded (S : Syn) (us : List TT) (guard : Option (List TT)) (rest : List TT) : Prop :=
  (begins (isWord "if") us = false ∧ guard = none ∧ rest = us) ∨
  ∃ c vs e, us = .ident c "if".toList :: vs ∧ S.fullExpr vs = some (e, rest) ∧ guard = some e

/-- Without a comma in front. -/
def sansComma (ts : List TT) : List TT := if begins isComma ts then ts.tail else ts

/-- Where the content of parentheses starts: at the first token, which is only the opening
delimiter of a group. At the closing parenthesis if there is nothing. -/
def headSpan (paren : Cur) (ts : List TT) : Cur :=
  match ts.head? with
  | none => ⟨⟨paren.stop.line, paren.stop.column - 1⟩, paren.stop⟩
  | some (.group cur _ _) => ⟨cur.start, ⟨cur.start.line, cur.start.column + 1⟩⟩
  | some t => t.cur

/-- Tokens and what they mean. -/
inductive Means (S : Syn) : Form → Prop where
  | nil : Means S (.nodes [] [])
  | word {t : TT} {w : Str} {ts : List TT} {ns} : wordOf t = some w → Means S (.nodes ts ns) →
    Means S (.nodes (t :: ts) (.tree t.cur w :: ns))
  | quoted {cur : Cur} {s text : Str} {ts : List TT} {ns} : Means S (.nodes ts ns) →
    Means S (.nodes (.str cur s text :: ts) (.quoted cur s :: ns))
  | group {cur : Cur} {d : Delimiter} {content ts : List TT} {ms ns} : Means S (.nodes content ms) →
    Means S (.nodes ts ns) → Means S (.nodes (.group cur d content :: ts) (.group cur d ms :: ns))
  /-- A dollar in front of something else. -/
  | alone {cur : Cur} {j : Bool} {ts : List TT} {ns} : Alone S ts → Means S (.nodes ts ns) →
    Means S (.nodes (.punct cur '$' j :: ts) (.tree cur ['$'] :: ns))
  /-- `$$` -/
  | escape {a b : Cur} {j k : Bool} {ts : List TT} {ns} : Means S (.nodes ts ns) →
    Means S (.nodes (.punct a '$' j :: .punct b '$' k :: ts) (.escape (through a b) :: ns))
  /-- `$[' ']`, `$['\r']`, `$['\n']` -/
  | control {a b c : Cur} {j : Bool} {ch : Char} {k : ControlKind} {text : Str} {ts : List TT} {ns} :
    (ch, k) ∈ [(' ', ControlKind.space), ('\r', .push), ('\n', .line)] → begins isParen ts = false →
    Means S (.nodes ts ns) →
    Means S (.nodes (.punct a '$' j :: .group b .bracket [.char c ch text] :: ts) (.control (through a b) k :: ns))
  /-- `$[str](parts)` -/
  | str {a b c p : Cur} {j : Bool} {content ts : List TT} {ps ns} : Means S (.parts content ps) →
    Means S (.nodes ts ns) →
    Means S (.nodes (.punct a '$' j :: .group b .bracket [.ident c "str".toList] :: .group p .parenthesis content :: ts)
      (.str (through a p) p ps :: ns))
  /-- `$name` -/
  | name {a b : Cur} {j : Bool} {name : Str} {ts : List TT} {ns} : S.keyword name = false →
    Means S (.nodes ts ns) →
    Means S (.nodes (.punct a '$' j :: .ident b name :: ts) (.eval (through a b) [.ident b name] :: ns))
  /-- `$(…)` -/
  | paren {a p : Cur} {j : Bool} {content ts : List TT} {n ns} : Means S (.inside (through a p) content n) →
    Means S (.nodes ts ns) →
    Means S (.nodes (.punct a '$' j :: .group p .parenthesis content :: ts) (n :: ns))
  /-- `$("s")` -/
  | literal {cur c : Cur} {s text : Str} : Means S (.inside cur [.str c s text] (.literal cur s))
  /-- `$(e)` -/
  | eval {cur : Cur} {ts e : List TT} : begins isLead ts = false → (∀ c s text, ts ≠ [.str c s text]) →
    S.fullExpr ts = some (e, []) → Means S (.inside cur ts (.eval cur e))
  /-- `$(if c => body)`, `$(if c { body })` -/
  | ifThen {cur c : Cur} {ts e r : List TT} {ns} : S.expr ts = some (e, r) → Means S (.body r ns) →
    Means S (.inside cur (.ident c "if".toList :: ts) (.ifThen cur e ns))
  /-- `$(if c { body } else { body })` -/
  | ifElse {cur c c1 c2 c3 : Cur} {ts e b1 b2 : List TT} {ns ms} :
    S.expr ts = some (e, [.group c1 .brace b1, .ident c2 "else".toList, .group c3 .brace b2]) →
    Means S (.nodes b1 ns) → Means S (.nodes b2 ms) →
    Means S (.inside cur (.ident c "if".toList :: ts) (.ifElse cur e ns ms))
  /-- `$(for pat in iter => body)`, `$(for pat in iter { body })` -/
  | loop {cur c c1 : Cur} {ts pat us iter r : List TT} {ns} :
    S.pat ts = some (pat, .ident c1 "in".toList :: us) → S.expr us = some (iter, r) →
    begins (isWord "join") r = false → Means S (.body r ns) →
    Means S (.inside cur (.ident c "for".toList :: ts) (.loop cur pat iter ns))
  /-- `$(for pat in iter join (sep) => body)` and with braces -/
  | joined {cur c c1 c2 p : Cur} {ts pat us iter sep r : List TT} {ms ns} :
    S.pat ts = some (pat, .ident c1 "in".toList :: us) →
    S.expr us = some (iter, .ident c2 "join".toList :: .group p .parenthesis sep :: r) →
    Means S (.nodes sep ms) → Means S (.body r ns) →
    Means S (.inside cur (.ident c "for".toList :: ts) (.joined cur pat iter p ms ns))
  /-- `$(match e { arms })` -/
  | select {cur c c1 : Cur} {ts e body : List TT} {as} :
    S.expr ts = some (e, [.group c1 .brace body]) → Means S (.arms body as) →
    Means S (.inside cur (.ident c "match".toList :: ts) (.select cur e as))
  /-- `$(let pat = e)` -/
  | bind {cur c c1 : Cur} {j : Bool} {ts pat us e : List TT} :
    S.pat ts = some (pat, .punct c1 '=' j :: us) → S.expr us = some (e, []) →
    Means S (.inside cur (.ident c "let".toList :: ts) (.bind cur pat e))
  /-- `$(ref b => code)`, `$(ref b { code })` -/
  | scope {cur c c1 : Cur} {b : Str} {ts code : List TT} : b = ['_'] ∨ S.keyword b = false →
    ((∃ a1 a2 j, ts = arrow a1 a2 j ++ code) ∨ ∃ a1, ts = [.group a1 .brace code]) →
    Means S (.inside cur (.ident c "ref".toList :: .ident c1 b :: ts) (.scope cur (decide (b ≠ ['_'])) code))
  | behind {a b : Cur} {j : Bool} {ts : List TT} {ns} : Means S (.nodes ts ns) →
    Means S (.body (arrow a b j ++ ts) ns)
  | braces {a : Cur} {ts : List TT} {ns} : Means S (.nodes ts ns) → Means S (.body [.group a .brace ts] ns)
  | noArms : Means S (.arms [] [])
  /-- `pat => { block }`, `pat if guard => { block }` -/
  | armBlock {a b c : Cur} {j : Bool} {ts pat us r block rest : List TT} {guard ns as} : ts ≠ [] →
    S.patMulti ts = some (pat, us) → Guarded S us guard (arrow a b j ++ r) →
    r = .group c .brace block :: rest → Means S (.nodes block ns) → Means S (.arms (sansComma rest) as) →
    Means S (.arms ts (.mk pat guard none ns :: as))
  /-- `pat => (block)` -/
  | armParen {a b c : Cur} {j : Bool} {ts pat us r block rest : List TT} {guard ns as} : ts ≠ [] →
    S.patMulti ts = some (pat, us) → Guarded S us guard (arrow a b j ++ r) →
    r = .group c .parenthesis block :: rest → Means S (.nodes block ns) → Means S (.arms (sansComma rest) as) →
    Means S (.arms ts (.mk pat guard (some c) ns :: as))
  /-- `pat => tokens,`: up to the next comma that is in no group. -/
  | armLine {a b : Cur} {j : Bool} {ts pat us r : List TT} {guard ns as} : ts ≠ [] →
    S.patMulti ts = some (pat, us) → Guarded S us guard (arrow a b j ++ r) →
    begins isBrace r = false → begins isParen r = false →
    Means S (.nodes (r.takeWhile (fun t => !isComma t)) ns) →
    Means S (.arms (r.dropWhile (fun t => !isComma t)).tail as) →
    Means S (.arms ts (.mk pat guard none ns :: as))
  | noParts : Means S (.parts [] [])
  /-- A token tree in a string. -/
  | plain {t : TT} {ts : List TT} {ps} : (∀ c j, t ≠ .punct c '$' j) → Means S (.parts ts ps) →
    Means S (.parts (t :: ts) (.tt t.cur (S.display t) :: ps))
  | dollar {a b : Cur} {j k : Bool} {ts : List TT} {ps} : Means S (.parts ts ps) →
    Means S (.parts (.punct a '$' j :: .punct b '$' k :: ts) (.dollar (through a b) :: ps))
  /-- `$[const]("s")` -/
  | constant {a b c p q : Cur} {j : Bool} {s text : Str} {ts : List TT} {ps} : Means S (.parts ts ps) →
    Means S (.parts (.punct a '$' j :: .group b .bracket [.ident c "const".toList] ::
      .group p .parenthesis [.str q s text] :: ts) (.constant (through a p) s :: ps))
  /-- `$[const](e)` -/
  | raw {a b c p : Cur} {j : Bool} {content e ts : List TT} {ps} : (∀ c s text, content ≠ [.str c s text]) →
    S.fullExpr content = some (e, []) → Means S (.parts ts ps) →
    Means S (.parts (.punct a '$' j :: .group b .bracket [.ident c "const".toList] ::
      .group p .parenthesis content :: ts) (.raw (through a p) e :: ps))
  /-- `$name` -/
  | value {a b : Cur} {j : Bool} {name : Str} {ts : List TT} {ps} : S.keyword name = false →
    Means S (.parts ts ps) →
    Means S (.parts (.punct a '$' j :: .ident b name :: ts) (.ident (through a b) name :: ps))
  /-- `$(nodes)` -/
  | stream {a p : Cur} {j : Bool} {content ts : List TT} {ns ps} : Means S (.nodes content ns) →
    Means S (.parts ts ps) →
    Means S (.parts (.punct a '$' j :: .group p .parenthesis content :: ts)
      (.stream (through a p) (headSpan p content) ns :: ps))

/-- The nodes of an input, if the parser accepts it. -/
def Parses (S : Syn) (ts : List TT) (ns : List (Node (List TT))) : Prop := ∃ n, parseAll S n ts = some ns

/-- Tokens read as `ns` do not run into the tokens `us`: the last node is no single dollar, and
no control before a parenthesis. -/
def Apart (ns : List (Node (List TT))) (us : List TT) : Prop :=
  (∀ c, ns.getLast? ≠ some (.tree c ['$'])) ∧ ((∃ c k, ns.getLast? = some (.control c k)) → begins isParen us = false)

end Genco.Spec.MacroFile
