import Verif.Spec.Source
import Verif.Spec.MacroParse
import Verif.Spec.Files
import Verif.Model.Lex

/-!
# Templates in source text

Source text of a macro with holes of all kinds in it: names, strings, expressions, conditions, loops
and matches, with text in them that has holes again. A hole may be longer than a line. What such a text
means is given by rules; there are no tokens and no places in the result, only lines.
-/

set_option autoImplicit false

namespace Genco.Spec.Doc

open Genco Macro Spec Spec.Text Spec.MacroFile

variable {ι Env : Type}

/-! ## Text with holes -/

/-- A character of a line, or a hole: its source, the lines it stands for, and what it imports. A hole that
writes nothing has no lines; one that writes an empty line has one. -/
inductive Glyph (ι : Type) where
  | char (c : Char)
  | hole (source : Str) (lines : List Str) (imports : List ι)

/-- A line. There may be line breaks in the holes. -/
abbrev Line (ι : Type) := List (Glyph ι)

def Glyph.source : Glyph ι → Str
  | .char c => [c]
  | .hole h _ _ => h

/-- The source of a line. -/
def sourceLine (l : Line ι) : Str := l.flatMap Glyph.source

/-- The source of lines. -/
def sourceOf (ls : List (Line ι)) : Str := Macro.textOf (ls.map sourceLine)

def Glyph.shape : Glyph ι → Char
  | .char c => c
  | .hole _ _ _ => '$'

/-- A line with a dollar for every hole. -/
def shape (l : Line ι) : Str := l.map Glyph.shape

def Glyph.imports : Glyph ι → List ι
  | .char _ => []
  | .hole _ _ is => is

/-- What the holes import, in the order of the text. -/
def importsOf (ls : List (Line ι)) : List ι := ls.flatMap (fun l => l.flatMap Glyph.imports)

/-- The column behind a text that starts at a column. -/
def behind : Nat → Str → Nat
  | k, [] => k
  | k, c :: r => behind (if c = '\n' then 0 else k + 1) r

/-- The holes of a line that starts at a column: their columns, their source, their lines and what they
import. -/
def holes : Nat → Line ι → List (Nat × Str × List Str × List ι)
  | _, [] => []
  | k, .char _ :: r => holes (k + 1) r
  | k, .hole h vs is :: r => (k, h, vs, is) :: holes (behind k h) r

/-- The holes of lines. Only the first one starts at a column of its own. -/
def holesOf : Nat → List (Line ι) → List (Nat × Str × List Str × List ι)
  | _, [] => []
  | k, l :: ls => holes k l ++ holesOf 0 ls

/-! ## Which text can be read -/

/-- Characters that may not follow each other where a hole starts or ends: they would be read as one
word, or as a string with a prefix or a suffix. -/
def sticks (a b : Char) : Bool :=
  (nameChar a && (nameChar b || b == '#' || b == '"' || b == '\'')) || ((a == '"' || a == '\'') && nameChar b)

/-- A hole does not stick to what is before and behind it. -/
def loose : Line ι → Bool
  | .char _ :: .char d :: r => loose (.char d :: r)
  | x :: y :: r => !((x.source.getLast?).any (fun a => (y.source.head?).any (sticks a))) && loose (y :: r)
  | _ => true

/-- A line that can be read. -/
structure Sound (l : Line ι) : Prop where
  chars : ∀ c, Glyph.char c ∈ l → plainChar c = true ∧ c ≠ '\n'
  apart : apart (shape l) = true
  numbers : numbers none (shape l) = true
  loose : loose l = true

/-! ## What is rendered -/

/-- The lines of a line with its holes filled: what is before a hole goes on with its first line, and its
last line goes on with what is behind. -/
def filled : Line ι → List Str
  | [] => [[]]
  | .char c :: r => Template.seam [[c]] [] (filled r)
  | .hole _ vs _ :: r => Template.seam vs [] (filled r)

def isSpace : Glyph ι → Bool
  | .char c => c == ' '
  | .hole _ _ _ => false

/-- Without the spaces in front of another one or of the end. -/
def squeeze : Line ι → Line ι
  | [] => []
  | x :: r => if isSpace x && (r.isEmpty || r.head?.any isSpace) then squeeze r else x :: squeeze r

/-- A line without the spaces around it, and with single spaces in it. -/
def tidy (l : Line ι) : Line ι := squeeze (l.dropWhile isSpace)

/-- Every line, tidied up, filled, and at the level of the off-side rule; one empty line for blank lines
between others. `past` are the columns of the lines above, `gap` tells if there is a blank line above. -/
def rendered (cfg : Config) : List Nat → Bool → List (Line ι) → List Str
  | _, _, [] => []
  | past, gap, l :: ls =>
    if blank (shape l) then rendered cfg past true ls
    else (if gap ∧ past ≠ [] then [[]] else []) ++
      ((filled (tidy l)).map (movedIn cfg (depth (columnOf (shape l)) past)) ++
        rendered cfg (columnOf (shape l) :: past) false ls)

/-- The first line with the spaces up to the column at which it starts. -/
def pad (k : Nat) : List (Line ι) → List (Line ι)
  | [] => []
  | l :: ls => (List.replicate k (.char ' ') ++ l) :: ls

/-! ### Holes that write nothing -/

def Glyph.isVoid : Glyph ι → Bool
  | .char _ => false
  | .hole _ vs _ => vs.isEmpty

/-- A line without the holes that write nothing. -/
def strip (l : Line ι) : Line ι := l.filter (fun x => !x.isVoid)

/-- Nothing is written on the line. -/
def hollow (l : Line ι) : Bool := blank (shape (strip l))

/-- The first thing on the line writes nothing. -/
def startsVoid (l : Line ι) : Bool := (l.dropWhile isSpace).head?.any Glyph.isVoid

/-- The characters and holes of a text, without spaces. -/
def things (ls : List (Line ι)) : Line ι := ls.flatten.filter (fun x => !isSpace x)

/-- What is left without the holes that write nothing, and without the lines on which there is nothing else.
`gap` tells if there is a blank line above. `prev` is the column of the line above it, and `kept` tells if
there is a blank line above that one, since the last line left; this one counts if the column is the same. -/
def left : Option Nat → Bool → Bool → List (Line ι) → List (Line ι)
  | _, _, _, [] => []
  | prev, kept, gap, l :: ls =>
    if blank (shape l) then left prev kept true ls
    else if hollow l then left (some (columnOf (shape l))) (gap || (kept && prev == some (columnOf (shape l)))) false ls
    else (if gap || (kept && prev == some (columnOf (shape l))) then [[]] else []) ++
      strip l :: left (some (columnOf (shape l))) false false ls

/-- The column of the first line left. -/
def below : List (Line ι) → Option Nat
  | [] => none
  | l :: ls => if hollow l then below ls else some (columnOf (shape l))

/-- Lines that can be left out. A line with nothing but holes that write nothing is at the column of the
line above it or of the next line left, or there is none. Above the first line left it is a single hole at
the column of that line. No other line starts with a hole that writes nothing. `prev` is the column of the
line above, or `none` if no line has been left. -/
def neat : Option Nat → List (Line ι) → Bool
  | _, [] => true
  | prev, l :: ls =>
    if blank (shape l) then neat prev ls
    else if hollow l then
      (match prev with
        | none => decide ((things [l]).length = 1) && below ls == some (columnOf (shape l))
        | some p => columnOf (shape l) == p || below ls == some (columnOf (shape l)) || below ls == none) &&
      neat (prev.map fun _ => columnOf (shape l)) ls
    else !startsVoid l && neat (some (columnOf (shape l))) ls

/-- The first and the last thing of a text write something. -/
def framed (ls : List (Line ι)) : Bool :=
  (things ls).head?.any (fun x => !x.isVoid) && (things ls).getLast?.any (fun x => !x.isVoid)

/-- The lines of a text that starts at a column. -/
def linesOf (cfg : Config) (k : Nat) (ls : List (Line ι)) : List Str :=
  rendered cfg [] false (left none false false (pad k ls))

/-- Lines that can be read, with brackets that match, that keep to the off-side rule, and something in
them. The text starts at column `k`. -/
structure Fit (k : Nat) (ls : List (Line ι)) : Prop where
  sound : ∀ l ∈ ls, Sound l
  nested : nested [] (Macro.textOf (ls.map shape)) = true
  offside : offside [] ((pad k ls).map shape) = true
  neat : neat none (pad k ls) = true
  ink : ∃ l ∈ ls, hollow l = false

/-- The same as a check. -/
def fits (k : Nat) (ls : List (Line ι)) : Bool :=
  ls.all (fun l => l.all (fun x => match x with | .char c => plainChar c && c != '\n' | .hole _ _ _ => true) &&
    Text.apart (shape l) && Text.numbers none (shape l) && loose l) &&
  Text.nested [] (Macro.textOf (ls.map shape)) && Text.offside [] ((pad k ls).map shape) &&
  neat none (pad k ls) && ls.any (fun l => !hollow l)

/-- Lines one behind the other on one line, with a space between them. -/
def oneLine : List (Line ι) → Line ι
  | [] => []
  | [l] => l
  | l :: ls => l ++ .char ' ' :: oneLine ls

/-- The lines a compiler knows of: without line numbers all of a text is on one line. -/
def seenBy : Compiler → List (Line ι) → List (Line ι)
  | .nightly, ls => ls
  | .stable, ls => [oneLine ls]

/-! ## Rust code in holes -/

/-- No comment. -/
def silent : Str → Bool
  | a :: b :: r => !(a == '/' && b == '/') && silent (b :: r)
  | _ => true

/-- Code can be read, and there is no comment in it. -/
structure Reads (C : Compiler) (e : Str) : Prop where
  lexes : ∀ p, ∃ ts, lex C p e = some ts
  silent : silent e = true

/-- A property of the tokens of code, wherever it is. -/
def Always (C : Compiler) (e : Str) (P : List TT → Prop) : Prop := ∀ p ts, lex C p e = some ts → P ts

/-- The parser takes all of the code, up to what follows. -/
def Takes (f : List TT → Option (List TT × List TT)) (ends : List TT → Bool) (ts : List TT) : Prop :=
  ∀ rest, ends rest = true → f (ts ++ rest) = some (ts, rest)

/-- What follows the expression of a condition, a loop or a match. -/
def endsExpr (r : List TT) : Bool := (fatArrow r).isSome || startsBrace r || startsWith "join" r

/-- What follows the pattern of a loop. -/
def endsPat (r : List TT) : Bool := startsWith "in" r

/-- What follows the pattern of an arm with or without a condition, and what follows the condition. -/
def endsArm (guarded : Bool) (r : List TT) : Bool := if guarded then startsWith "if" r else (fatArrow r).isSome

/-- The expression of a condition, a loop or a match. -/
structure IsExpr (C : Compiler) (S : Syn) (e : Str) : Prop extends Reads C e where
  takes : Always C e (Takes S.expr endsExpr)

/-! ### Arms -/

/-- The condition of an arm. -/
def condOf : Option Str → Str
  | none => []
  | some g => c!" if " ++ g

/-- A property of the tokens of code that may be missing. -/
def Maybe (C : Compiler) (g : Option Str) (P : Option (List TT) → Prop) : Prop :=
  match g with
  | none => P none
  | some g => Always C g (fun ts => P (some ts))

/-- The pattern of an arm, and its condition. -/
structure IsArm (C : Compiler) (S : Syn) (p : Str) (g : Option Str) : Prop where
  reads : Reads C p
  takes : Always C p (fun tp => Takes S.patMulti (endsArm g.isSome) tp ∧ tp ≠ [] ∧ begins isComma tp = false)
  guard : ∀ x ∈ g, Reads C x ∧ Always C x (Takes S.fullExpr (endsArm false))

/-- How the text of an arm is marked off: by braces and maybe a comma, or by a comma that may be missing at
the last arm. -/
inductive Casing where
  | braces (comma : Bool)
  | line (comma : Bool)

def Casing.before : Casing → Str
  | .braces _ => c!" => {"
  | .line _ => c!" =>"

def Casing.after : Casing → Str
  | .braces comma => '}' :: if comma then [','] else []
  | .line comma => if comma then [','] else []

/-- Text without braces and parentheses around it, and without a comma that is in no bracket. -/
def inLine (ts : List TT) : Bool := ts.all (fun t => !isComma t) && !begins isBrace ts && !begins isParen ts

/-- The text ends where it should. In front of a comma it ends with no punctuation. -/
def Casing.Cuts (C : Compiler) (b rest : Str) : Casing → Prop
  | .braces _ => True
  | .line comma => Always C b (fun ts => inLine ts = true) ∧
    if comma then b.getLast?.any punctChar = false else rest = []

/-! ### Other parts -/

/-- Some value for every expression: conditions hold, loops have one round and the first arm is taken.
With these values a text has a meaning if it is a template at all. -/
def idle (ι E Env : Type) : Host ι E Env where
  value _ _ := [.append (.literal (.static ['x']))]
  scope _ _ := [.append (.literal (.static ['x']))]
  iter ρ _ _ := [ρ]
  test ρ _ := some ρ
  pick ρ _ _ _ := some ρ
  bind ρ _ _ := ρ

/-- Characters that are written with a backslash between such quotation marks: the mark, the backslash, and
the end of a line; between single ones, the line break and the tabulator as well. -/
def escaped (q c : Char) : Bool := c == q || c == '\\' || c == '\r' || (q == '\'' && (c == '\n' || c == '\t'))

/-- What a character behind a backslash is for (The Rust Reference, "Quote escapes" and "ASCII escapes" without
`\\x`). -/
def meant (c : Char) : Option Char :=
  [('n', '\x0a'), ('r', '\x0d'), ('t', '\x09'), ('0', '\x00'), ('\\', '\\'), ('"', '"'), ('\'', '\'')].lookup c

/-- The text between the quotation marks, and what it is. -/
def unquoted (q : Char) : Str → Option Str
  | [] => some []
  | '\\' :: c :: r => do some ((← meant c) :: (← unquoted q r))
  | c :: r => if escaped q c then none else do some (c :: (← unquoted q r))

/-! ## Simple code -/

/-- The end of the pattern of a loop. -/
def patEnd (ts : List TT) : Bool := (fatArrow ts).isSome || startsWith "in" ts || startsEq ts

/-- The end of the pattern of an arm. -/
def armEnd (ts : List TT) : Bool := (fatArrow ts).isSome || startsWith "if" ts

/-- There is a token, and there is no end between two. -/
def runsOn (stop : List TT → Bool) : List TT → Bool
  | [] => false
  | [_] => true
  | _ :: r => !stop r && runsOn stop r

/-- Code can be read, there is no comment in it, and its tokens are like this. Where the tokens are does not matter. -/
def codeLike (f : List TT → Bool) (e : Str) : Bool := silent e && (lex .nightly ⟨1, 0, 0⟩ e).any f

/-- An expression in front of `=>`, `{` or `join`. -/
def simpleExpr (e : Str) : Bool := codeLike (runsOn (fun ts => exprEnd ts || startsBrace ts)) e

/-- A pattern in front of `in`. -/
def simplePat (e : Str) : Bool := codeLike (runsOn patEnd) e

/-- A condition in front of `=>`. -/
def simpleGuard (e : Str) : Bool := codeLike (runsOn exprEnd) e

/-- Text in front of a comma, or the text of the last arm. -/
def simpleLine (e : Str) : Bool := (lex .nightly ⟨1, 0, 0⟩ e).any inLine

/-- The text of an arm ends where it should. -/
def Casing.cuts (b rest : Str) : Casing → Bool
  | .braces _ => true
  | .line comma => simpleLine b && if comma then !b.getLast?.any punctChar else rest.isEmpty

/-- A pattern in front of `=>` or `if`. -/
def simpleArm (e : Str) : Bool := codeLike (fun ts => runsOn armEnd ts && !begins isComma ts) e

/-- An expression in parentheses: it starts with no keyword of the macros, and is no string. -/
def simpleValue (e : Str) : Bool :=
  codeLike (fun ts => runsOn exprEnd ts && !begins isLead ts && !(ts.length == 1 && begins (fun t => match t with | .str _ _ _ => true | _ => false) ts)) e

/-! ## Separators -/

/-- The text of a separator. -/
inductive IsSep : Str → Template.Sep → Prop
  | gap (n : Nat) : IsSep (List.replicate n ' ') (.gap (decide (0 < n)))
  | text (a b : Nat) {s : Str} : s ≠ [] → (∀ c ∈ s, plainChar c = true ∧ blankChar c = false) → apart s = true →
    numbers none s = true → nested [] s = true →
    IsSep (List.replicate a ' ' ++ (s ++ List.replicate b ' ')) (.text (decide (0 < a)) s (decide (0 < b)))
  | space : IsSep c!"$[' ']" (.gap true)
  | push : IsSep c!"$['\\r']" (.stack false)
  | line : IsSep c!"$['\\n']" (.stack true)

/-! ## Strings with code in them -/

/-- A part of a string: text, or the lines of code that is evaluated. -/
inductive Stretch where
  | text (s : Str)
  | code (lines : List Str)

def Stretch.isCode : Stretch → Bool
  | .text _ => false
  | .code _ => true

/-- The lines of a part: text is escaped, and code has the marks of an evaluation around it. -/
def Stretch.lines (L : Lang ι) : Stretch → List Str
  | .text s => [(L.writeQuoted s).flatten]
  | .code vs => Template.seam (Template.seam [L.startEval.flatten] [] vs) [] [L.endEval.flatten]

/-- The lines of a string: its parts one behind the other, with the quotation marks around them. -/
def stringLines (L : Lang ι) (bs : List Stretch) : List Str :=
  Template.seam ((bs.map (Stretch.lines L)).foldl (fun a b => Template.seam a [] b) [(L.openQuote (bs.any Stretch.isCode)).flatten]) []
    [(L.closeQuote (bs.any Stretch.isCode)).flatten]

/-! ## Rules -/

/-- What means what. -/
inductive Form (ι Env : Type) where
  /-- A hole at a column, with its lines and what it imports. -/
  | hole (k : Nat) (source : Str) (lines : List Str) (imports : List ι)
  /-- Holes one behind the other, with the variables behind them. -/
  | holes (xs : List (Nat × Str × List Str × List ι)) (after : Env)
  /-- Text in a hole that starts at a column. -/
  | text (k : Nat) (source : Str) (lines : List Str) (imports : List ι)
  /-- Arms for the value of an expression that start at a column. `none` if no arm is taken. -/
  | arms (e : Str) (k : Nat) (source : Str) (result : Option (List Str × List ι))
  /-- The parts of a string, from a column to the closing parenthesis. -/
  | parts (k : Nat) (source : Str) (bits : List Stretch) (imports : List ι)

/-- The text of a body behind `=>`, or in braces. -/
def bodyOf (braces : Bool) (b : Str) : Str := if braces then c!" {" ++ (b ++ c!"}") else c!" =>" ++ b

/-- The column of the text of a body, given the column of what is before. -/
def bodyAt (k : Nat) (before : Str) (braces : Bool) : Nat := behind k (before ++ if braces then c!" {" else c!" =>")

/-- The calls make a block of these lines, or there is neither a call nor a line. -/
def Makes (L : Lang ι) (cfg : Config) (cs : List (Call ι)) (vs : List Str) : Prop :=
  Template.BlockOf L cfg cs vs ∨ (cs = [] ∧ vs = [])

/-- What the text of a hole means. `S` is the Rust parser, `H` and `ρ` are the values of expressions. -/
inductive Told (C : Compiler) (S : Syn) (L : Lang ι) (cfg : Config) :
    Host ι (List TT) Env → Env → Form ι Env → Prop where
  /-- `$name` -/
  | name {H ρ k n vs is} (c : Char) (r : Str) : n = c :: r → n.all nameChar = true → c.isDigit = false →
    S.keyword n = false → (∃ cs, (∀ cur, H.value ρ [.ident cur n] = cs) ∧ Makes L cfg cs vs ∧ inserted cs = is) →
    Told C S L cfg H ρ (.hole k ('$' :: n) vs is)
  /-- `$$` -/
  | dollar {H ρ k} : Told C S L cfg H ρ (.hole k c!"$$" [['$']] [])
  /-- `'c'` -/
  | char {H ρ k s v} : unquoted '\'' s = some [v] → Told C S L cfg H ρ (.hole k ('\'' :: s ++ ['\'']) [['\''] ++ s ++ ['\'']] [])
  /-- `"string"` -/
  | string {H ρ k s v vs} : unquoted '"' s = some v → v ≠ [] →
    Template.BlockOf L cfg [.append (.openQuote false), .append (.literal (.static v)), .append .closeQuote] vs →
    Told C S L cfg H ρ (.hole k ('"' :: s ++ ['"']) vs [])
  /-- `$("text")` -/
  | literal {H ρ k s v} : unquoted '"' s = some v → v ≠ [] →
    Told C S L cfg H ρ (.hole k (c!"$(\"" ++ s ++ c!"\")") [v] [])
  /-- `$(e)` -/
  | value {H ρ k e vs is} : Reads C e → Always C e (fun ts => begins isLead ts = false ∧ (∀ c s text, ts ≠ [.str c s text]) ∧
      S.fullExpr ts = some (ts, [])) →
    (∃ cs, Always C e (fun ts => H.value ρ ts = cs) ∧ Makes L cfg cs vs ∧ inserted cs = is) →
    Told C S L cfg H ρ (.hole k (c!"$(" ++ (e ++ c!")")) vs is)
  /-- `$(ref name => code)`, `$(ref name { code })` -/
  | scope {H ρ k n e vs is} (br : Bool) (c : Char) (r : Str) : n = c :: r → n.all nameChar = true → c.isDigit = false →
    S.keyword n = false → n ≠ ['_'] → Reads C e → (∃ cs, Always C e (fun ts => H.scope ρ ts = cs) ∧ Makes L cfg cs vs ∧ inserted cs = is) →
    Told C S L cfg H ρ (.hole k (c!"$(ref " ++ (n ++ (bodyOf br e ++ c!")"))) vs is)
  /-- `$(if c => text)`, `$(if c { text })` -/
  | ifThen {H ρ k c b vs is} (br : Bool) (ρ' : Env) : IsExpr C S c → Always C c (fun ts => H.test ρ ts = some ρ') →
    Told C S L cfg H ρ' (.text (bodyAt k (c!"$(if " ++ c) br) b vs is) →
    Told C S L cfg H ρ (.hole k (c!"$(if " ++ (c ++ (bodyOf br b ++ c!")"))) vs is)
  /-- … and the condition does not hold -/
  | ifNot {H ρ k c b vs is} (br : Bool) : IsExpr C S c → Always C c (fun ts => H.test ρ ts = none) →
    Told C S L cfg (idle ι (List TT) Env) ρ (.text (bodyAt k (c!"$(if " ++ c) br) b vs is) →
    Told C S L cfg H ρ (.hole k (c!"$(if " ++ (c ++ (bodyOf br b ++ c!")"))) [] [])
  /-- `$(if c { text } else { text })`, and the condition holds -/
  | ifElse {H ρ k c b d vs is vs' is'} (ρ' : Env) : IsExpr C S c → Always C c (fun ts => H.test ρ ts = some ρ') →
    Told C S L cfg H ρ' (.text (bodyAt k (c!"$(if " ++ c) true) b vs is) →
    Told C S L cfg (idle ι (List TT) Env) ρ (.text (behind k (c!"$(if " ++ (c ++ (c!" {" ++ (b ++ c!"} else {"))))) d vs' is') →
    Told C S L cfg H ρ (.hole k (c!"$(if " ++ (c ++ (c!" {" ++ (b ++ (c!"} else {" ++ (d ++ c!"})")))))) vs is)
  /-- … and it does not hold -/
  | orElse {H ρ k c b d vs is vs' is'} : IsExpr C S c → Always C c (fun ts => H.test ρ ts = none) →
    Told C S L cfg (idle ι (List TT) Env) ρ (.text (bodyAt k (c!"$(if " ++ c) true) b vs' is') →
    Told C S L cfg H ρ (.text (behind k (c!"$(if " ++ (c ++ (c!" {" ++ (b ++ c!"} else {"))))) d vs is) →
    Told C S L cfg H ρ (.hole k (c!"$(if " ++ (c ++ (c!" {" ++ (b ++ (c!"} else {" ++ (d ++ c!"})")))))) vs is)
  /-- `$(for p in e => text)`, `$(for p in e { text })`, with one round or more -/
  | loop {H ρ k p e b} (br : Bool) (rounds : List Env) (v : Env → List Str) (i : Env → List ι) : rounds ≠ [] →
    Reads C p → Always C p (Takes S.pat endsPat) → IsExpr C S e →
    Always C p (fun tp => Always C e (fun te => H.iter ρ tp te = rounds)) →
    (∀ ρ' ∈ rounds, Told C S L cfg H ρ' (.text (bodyAt k (c!"$(for " ++ (p ++ (c!" in " ++ e))) br) b (v ρ') (i ρ'))) →
    Told C S L cfg H ρ (.hole k (c!"$(for " ++ (p ++ (c!" in " ++ (e ++ (bodyOf br b ++ c!")")))))
      ((Template.Sep.gap false).lines ((rounds.map v).filter (fun vs => !vs.isEmpty))) (rounds.flatMap i))
  /-- … and without a round -/
  | noLoop {H ρ k p e b vs is} (br : Bool) : Reads C p → Always C p (Takes S.pat endsPat) → IsExpr C S e →
    Always C p (fun tp => Always C e (fun te => H.iter ρ tp te = [])) →
    Told C S L cfg (idle ι (List TT) Env) ρ (.text (bodyAt k (c!"$(for " ++ (p ++ (c!" in " ++ e))) br) b vs is) →
    Told C S L cfg H ρ (.hole k (c!"$(for " ++ (p ++ (c!" in " ++ (e ++ (bodyOf br b ++ c!")"))))) [] [])
  /-- `$(for p in e join (sep) => text)`, and with braces. Every round writes something. -/
  | joined {H ρ k p e q sep b} (br : Bool) (rounds : List Env) (v : Env → List Str) (i : Env → List ι) : rounds ≠ [] →
    Reads C p → Always C p (Takes S.pat endsPat) → IsExpr C S e →
    Always C p (fun tp => Always C e (fun te => H.iter ρ tp te = rounds)) → IsSep q sep → (∀ ρ' ∈ rounds, v ρ' ≠ []) →
    (∀ ρ' ∈ rounds, Told C S L cfg H ρ'
      (.text (bodyAt k (c!"$(for " ++ (p ++ (c!" in " ++ (e ++ (c!" join (" ++ (q ++ c!")")))))) br) b (v ρ') (i ρ'))) →
    Told C S L cfg H ρ (.hole k (c!"$(for " ++ (p ++ (c!" in " ++ (e ++ (c!" join (" ++ (q ++ (c!")" ++ (bodyOf br b ++ c!")"))))))))
      (sep.lines (rounds.map v)) (rounds.flatMap i))
  /-- … and without a round -/
  | noJoined {H ρ k p e q sep b vs is} (br : Bool) : Reads C p → Always C p (Takes S.pat endsPat) → IsExpr C S e →
    Always C p (fun tp => Always C e (fun te => H.iter ρ tp te = [])) → IsSep q sep →
    Told C S L cfg (idle ι (List TT) Env) ρ
      (.text (bodyAt k (c!"$(for " ++ (p ++ (c!" in " ++ (e ++ (c!" join (" ++ (q ++ c!")")))))) br) b vs is) →
    Told C S L cfg H ρ (.hole k (c!"$(for " ++ (p ++ (c!" in " ++ (e ++ (c!" join (" ++ (q ++ (c!")" ++ (bodyOf br b ++ c!")")))))))) [] [])
  /-- `$(match e { arms })` -/
  | select {H ρ k e b vs is} : IsExpr C S e →
    Told C S L cfg H ρ (.arms e (behind k (c!"$(match " ++ (e ++ c!" {"))) b (some (vs, is))) →
    Told C S L cfg H ρ (.hole k (c!"$(match " ++ (e ++ (c!" {" ++ (b ++ c!"})")))) vs is)
  /-- … and no arm is taken -/
  | noMatch {H ρ k e b} : IsExpr C S e →
    Told C S L cfg H ρ (.arms e (behind k (c!"$(match " ++ (e ++ c!" {"))) b none) →
    Told C S L cfg H ρ (.hole k (c!"$(match " ++ (e ++ (c!" {" ++ (b ++ c!"})")))) [] [])
  /-- No arm, only blanks. -/
  | noArms {H ρ e k b} : b.all blankChar = true → Told C S L cfg H ρ (.arms e k b none)
  /-- `p => { text }`, `p => text,`, maybe with a condition, and it is not taken -/
  | skipArm {H ρ e k w p g b rest vs is res} (m : Casing) : w.all blankChar = true → IsArm C S p g → m.Cuts C b rest →
    Always C e (fun te => Always C p (fun tp => Maybe C g (fun tg => H.pick ρ te tp tg = none))) →
    Told C S L cfg (idle ι (List TT) Env) ρ (.text (behind k (w ++ (p ++ (condOf g ++ m.before)))) b vs is) →
    Told C S L cfg H ρ (.arms e (behind k (w ++ (p ++ (condOf g ++ (m.before ++ (b ++ m.after)))))) rest res) →
    Told C S L cfg H ρ (.arms e k (w ++ (p ++ (condOf g ++ (m.before ++ (b ++ (m.after ++ rest)))))) res)
  /-- … and it is taken -/
  | takeArm {H ρ e k w p g b rest vs is res} (m : Casing) (ρ' : Env) : w.all blankChar = true → IsArm C S p g → m.Cuts C b rest →
    Always C e (fun te => Always C p (fun tp => Maybe C g (fun tg => H.pick ρ te tp tg = some ρ'))) →
    Told C S L cfg H ρ' (.text (behind k (w ++ (p ++ (condOf g ++ m.before)))) b vs is) →
    Told C S L cfg (idle ι (List TT) Env) ρ (.arms e (behind k (w ++ (p ++ (condOf g ++ (m.before ++ (b ++ m.after)))))) rest res) →
    Told C S L cfg H ρ (.arms e k (w ++ (p ++ (condOf g ++ (m.before ++ (b ++ (m.after ++ rest)))))) (some (vs, is)))
  /-- No hole. -/
  | noHoles {H ρ} : Told C S L cfg H ρ (.holes [] ρ)
  /-- A hole that gives no variable, and others. -/
  | nextHole {H ρ k src vs is xs ρ'} : Told C S L cfg H ρ (.hole k src vs is) → Told C S L cfg H ρ (.holes xs ρ') →
    Told C S L cfg H ρ (.holes ((k, src, vs, is) :: xs) ρ')
  /-- `$(let p = e)`, and others, for which its variables are there. It writes nothing. -/
  | bind {H ρ k p e xs ρ'} (ρ₁ : Env) : Reads C p → Always C p (Takes S.pat startsEq) →
    Reads C e → Always C e (fun te => S.expr te = some (te, [])) →
    Always C p (fun tp => Always C e (fun te => H.bind ρ tp te = ρ₁)) → Told C S L cfg H ρ₁ (.holes xs ρ') →
    Told C S L cfg H ρ (.holes ((k, c!"$(let " ++ (p ++ (c!" = " ++ (e ++ c!")"))), [], []) :: xs) ρ')
  /-- Text with holes that ends at the level at which it starts. -/
  | text {H ρ k ρ'} (ls : List (Line ι)) : Fit k (seenBy C ls) → lastDepth [] ((pad k (seenBy C ls)).map shape) = 0 → framed ls = true →
    Told C S L cfg H ρ (.holes (holesOf k ls) ρ') →
    Told C S L cfg H ρ (.text k (sourceOf ls) (linesOf cfg k (seenBy C ls)) (importsOf ls))
  /-- Text with nothing but one hole at most, that writes nothing. -/
  | noText {H ρ k ρ'} (ls : List (Line ι)) : (∀ l ∈ seenBy C ls, Sound l) → (things ls).length ≤ 1 → (things ls).all Glyph.isVoid = true →
    Told C S L cfg H ρ (.holes (holesOf k ls) ρ') →
    Told C S L cfg H ρ (.text k (sourceOf ls) [] (importsOf ls))
  /-- `$[str](parts)` -/
  | str {H ρ k b is} (bits : List Stretch) : (L.openQuote (bits.any Stretch.isCode)).flatten ≠ [] →
    (L.closeQuote (bits.any Stretch.isCode)).flatten ≠ [] →
    (bits.any Stretch.isCode = true → ∀ s, L.evalLiteral s = L.startEval ++ [s] ++ L.endEval) →
    Told C S L cfg H ρ (.parts (behind k c!"$[str](") b bits is) →
    Told C S L cfg H ρ (.hole k (c!"$[str](" ++ (b ++ c!")")) (stringLines L bits) is)
  /-- The end of a string. -/
  | noParts {H ρ k} : Told C S L cfg H ρ (.parts k [] [] [])
  /-- Spaces are kept. -/
  | spacePart {H ρ k r bits is} : Told C S L cfg H ρ (.parts (k + 1) r bits is) →
    Told C S L cfg H ρ (.parts k (' ' :: r) (.text [' '] :: bits) is)
  /-- A word or a number. -/
  | wordPart {H ρ k w r bits is} : w ≠ [] → w.all nameChar = true → numbers none w = true →
    (r.head?.all (fun c => !nameChar c && c != '#' && c != '"' && c != '\'')) = true →
    (∀ c, S.display (.ident c w) = w ∧ S.display (.lit c w) = w) → Told C S L cfg H ρ (.parts (behind k w) r bits is) →
    Told C S L cfg H ρ (.parts k (w ++ r) (.text w :: bits) is)
  /-- Punctuation. -/
  | punctPart {H ρ k c r bits is} : symbol c = true → (c == '/' && r.head?.any (fun d => d == '/' || d == '*')) = false →
    (∀ cur j, S.display (.punct cur c j) = [c]) →
    Told C S L cfg H ρ (.parts (k + 1) r bits is) → Told C S L cfg H ρ (.parts k (c :: r) (.text [c] :: bits) is)
  /-- `"string"`, as it is in the source. -/
  | quotePart {H ρ k s v r bits is} : unquoted '"' s = some v → r.head?.any nameChar = false →
    (∀ c, S.display (.str c v ('"' :: s ++ ['"'])) = '"' :: s ++ ['"']) →
    Told C S L cfg H ρ (.parts (behind k ('"' :: s ++ ['"'])) r bits is) →
    Told C S L cfg H ρ (.parts k ('"' :: s ++ ['"'] ++ r) (.text ('"' :: s ++ ['"']) :: bits) is)
  /-- `'c'`, as it is in the source. -/
  | charPart {H ρ k s v r bits is} : unquoted '\'' s = some [v] → r.head?.any nameChar = false →
    (∀ c, S.display (.char c v ('\'' :: s ++ ['\''])) = '\'' :: s ++ ['\'']) →
    Told C S L cfg H ρ (.parts (behind k ('\'' :: s ++ ['\''])) r bits is) →
    Told C S L cfg H ρ (.parts k ('\'' :: s ++ ['\''] ++ r) (.text ('\'' :: s ++ ['\'']) :: bits) is)
  /-- `$$` -/
  | dollarPart {H ρ k r bits is} : Told C S L cfg H ρ (.parts (behind k c!"$$") r bits is) →
    Told C S L cfg H ρ (.parts k (c!"$$" ++ r) (.text ['$'] :: bits) is)
  /-- `$[const]("s")` -/
  | constPart {H ρ k s v r bits is} : unquoted '"' s = some v → v ≠ [] →
    Told C S L cfg H ρ (.parts (behind k (c!"$[const](\"" ++ (s ++ c!"\")"))) r bits is) →
    Told C S L cfg H ρ (.parts k (c!"$[const](\"" ++ (s ++ c!"\")") ++ r) (.text v :: bits) is)
  /-- `$[const](e)`, with a text for a value. -/
  | rawPart {H ρ k e r bits is} (it : ItemStr) : Reads C e →
    Always C e (fun ts => (∀ c s text, ts ≠ [.str c s text]) ∧ S.fullExpr ts = some (ts, [])) →
    Always C e (fun ts => H.value ρ ts = [.append (.literal it)]) → it.text ≠ [] →
    Told C S L cfg H ρ (.parts (behind k (c!"$[const](" ++ (e ++ c!")"))) r bits is) →
    Told C S L cfg H ρ (.parts k (c!"$[const](" ++ (e ++ c!")") ++ r) (.text it.text :: bits) is)
  /-- `$name`: it is the name that is evaluated. -/
  | namePart {H ρ k n r bits is} (c : Char) (w : Str) : n = c :: w → n.all nameChar = true → c.isDigit = false →
    S.keyword n = false → (r.head?.all (fun c => !nameChar c && c != '#' && c != '"' && c != '\'')) = true →
    Told C S L cfg H ρ (.parts (behind k ('$' :: n)) r bits is) →
    Told C S L cfg H ρ (.parts k ('$' :: n ++ r) (.code [n] :: bits) is)
  /-- `$(text)` on one line, with holes that give no variable to what is behind. -/
  | codePart {H ρ k r bits is} (l : Line ι) : Fit (behind k c!"$(") [l] → framed [l] = true → '\n' ∉ sourceLine l →
    l.head?.all isSpace = false → l.getLast?.all isSpace = false → Told C S L cfg H ρ (.holes (holesOf (behind k c!"$(") [l]) ρ) →
    Told C S L cfg H ρ (.parts (behind k (c!"$(" ++ (sourceLine l ++ c!")"))) r bits is) →
    Told C S L cfg H ρ (.parts k (c!"$(" ++ (sourceLine l ++ c!")") ++ r) (.code (linesOf cfg (behind k c!"$(") [l]) :: bits)
      (importsOf [l] ++ is))

/-- Source text that is cut into lines with holes: it starts at column `k`, and its holes mean what the lines say. -/
structure Stands (C : Compiler) (K : Host ι Macro.Code Env) (ρ : Env) (L : Lang ι) (cfg : Config) (k : Nat) (src : List Str)
    (ls : List (Line ι)) : Prop where
  source : Macro.textOf src = sourceOf ls
  fit : Fit k (seenBy C ls)
  told : ∃ ρ', Told C syn L cfg K.anywhere ρ (.holes (holesOf k ls) ρ')

end Genco.Spec.Doc
