import Verif.Model.Lex
import Verif.Model.Formatter
import Verif.Model.Builders

/-!
# The tests of the repository, run on the model

Every `quote!` and `quote_in!` of `tests/` and of the documentation in `src/lib.rs` whose output is
asserted there, with its place in the file. The text goes through lexer, parser and encoder of the
model, and what comes out is compared with what the test expects. The Rust code in them is replaced by
a table of what it does. These are tests of the model, not theorems. `cfg` is what the languages take
as default.
-/

set_option autoImplicit false

namespace Genco.Conformance

open Macro

/-- The variables bound by loops, patterns and `let`, with their text. -/
abbrev Vars := List (Str × Str)

/-- What the code in a macro does. Statements are given by their lines. -/
structure Facts (ι : Type) where
  values : List (Str × List (Call ι)) := []
  scopes : List (List Str × List (Call ι)) := []
  iters : List (Str × Str × List Vars) := []
  tests : List Str := []
  picks : List (Str × Str × Option Str) := []
  binds : List (Str × Str × (Vars → Vars)) := []

variable {ι : Type}

/-- A text. -/
def put (x : Str) : List (Call ι) := [.append (.literal (.box x))]

/-- A quoted text. -/
def quo (x : Str) : List (Call ι) := [.append (.openQuote false), .append (.literal (.box x)), .append .closeQuote]

def Facts.host (t : Facts ι) : Host ι Code Vars where
  value ρ e :=
    match t.values.find? (fun v => code v.1 == e) with
    | some v => v.2
    | none =>
      match e with
      | [x] => ((ρ.lookup x).map put).getD []
      | _ => []
  scope _ e := ((t.scopes.find? (fun v => codes v.1 == e)).map (·.2)).getD []
  iter ρ p e := ((t.iters.find? (fun v => code v.1 == p && code v.2.1 == e)).map (fun v => v.2.2.map (· ++ ρ))).getD []
  test ρ e := if t.tests.any (fun v => code v == e) then some ρ else none
  pick ρ e p g := if t.picks.any (fun v => code v.1 == e && code v.2.1 == p && v.2.2.map code == g) then some ρ else none
  bind ρ p e := ((t.binds.find? (fun v => code v.1 == p && code v.2.1 == e)).map (fun v => v.2.2 ρ ++ ρ)).getD ρ

def facts (values : List (Str × List (Call ι))) (scopes : List (List Str × List (Call ι)) := [])
    (iters : List (Str × Str × List Vars) := []) (tests : List Str := []) (picks : List (Str × Str × Option Str) := [])
    (binds : List (Str × Str × (Vars → Vars)) := []) : Facts ι := ⟨values, scopes, iters, tests, picks, binds⟩

/-- The items made by `quote!`, or by `quote_in!` with an empty receiver. -/
def run (t : Facts ι) (i : Invocation) (isIn : Bool := false) : Option (List (Item ι)) :=
  (if isIn then i.runIn .nightly t.host [] .new else i.make .nightly t.host []).map Tokens.items

def made (t : Facts Rust.Import) (i : Invocation) (isIn : Bool := false) : Option (List (Item Rust.Import)) := run t i isIn

/-- What is appended by code with the macro in it. -/
def calls (l : Option (List (Item ι))) : List (Call ι) := (l.getD []).map .append

/-- Constant text. -/
abbrev s (x : Str) : Item Rust.Import := .literal (.static x)

/-- Other text. -/
abbrev b (x : Str) : Item Rust.Import := .literal (.box x)

/-- The default configuration, src/fmt/config.rs 53-61, and of the languages. -/
def cfg : Config := ⟨.space 4, ['\n']⟩

def text (t : Facts Rust.Import) (i : Invocation) (isIn : Bool := false) : Option Str :=
  (made t i isIn).bind (Genco.toString (Rust.lang .direct) cfg)

def fileOf (t : Facts Rust.Import) (i : Invocation) : Option (List Str) := do
  let tok ← i.make .nightly t.host []
  toFileVec (Rust.lang .direct) cfg (Rust.file .direct tok)

def dartText (t : Facts Unit) (i : Invocation) : Option Str := (run t i).bind (Genco.toString (dartLang (fun _ => [])) cfg)

def jsText (t : Facts Unit) (i : Invocation) : Option Str := (run t i).bind (Genco.toString (jsLang (fun _ => [])) cfg)

/-- `quote_in!`, tests/test_token_gen.rs 13. -/
def gen13 : Invocation := ⟨⟨13, 39, 289⟩, [c!" *tokens => hello "]⟩

/-- `quote!`, tests/test_token_gen.rs 9-15. -/
def gen9 : Invocation := ⟨⟨9, 39, 213⟩, [
    c!"",
    c!"        foo",
    c!"        bar",
    c!"        baz",
    c!"            $(ref tokens => quote_in! { *tokens => hello })",
    c!"        out?",
    c!"    "]⟩

/-- `test_token_gen`, tests/test_token_gen.rs 8-31. -/
example : made (facts [] (scopes := [([c!"quote_in! { *tokens => hello }"], calls (made {} gen13 true))])) gen9 =
    some [s c!"foo", .push, s c!"bar", .push, s c!"baz", .indentation 1, s c!"hello", .indentation (-1), s c!"out?"] := by decide +kernel

/-- `quote!`, tests/test_token_gen.rs 35-40. -/
def gen35 : Invocation := ⟨⟨35, 39, 745⟩, [
    c!"",
    c!"        $(ref t => for n in 0..3 {",
    c!"            t.push();",
    c!"            t.append(n);",
    c!"        })",
    c!"    "]⟩

/-- `quote!`, tests/test_token_gen.rs 54-61. -/
def gen54 : Invocation := ⟨⟨54, 39, 1120⟩, [
    c!"",
    c!"        $(ref t {",
    c!"            for n in 0..3 {",
    c!"                t.push();",
    c!"                t.append(n);",
    c!"            }",
    c!"        })",
    c!"    "]⟩

/-- `test_iterator_gen`, tests/test_token_gen.rs 34-73. -/
example : made (facts [] (scopes := [([c!"for n in 0..3 {", c!"t.push();", c!"t.append(n);", c!"}"],
      [.push, .append (b ['0']), .push, .append (b ['1']), .push, .append (b ['2'])])])) gen35 =
    some [.push, b ['0'], .push, b ['1'], .push, b ['2']] ∧
  made (facts [] (scopes := [([c!"for n in 0..3 {", c!"t.push();", c!"t.append(n);", c!"}"],
      [.push, .append (b ['0']), .push, .append (b ['1']), .push, .append (b ['2'])])])) gen54 =
    some [.push, b ['0'], .push, b ['1'], .push, b ['2']] := by decide +kernel

/-- `quote_in!`, tests/test_token_gen.rs 82-90. -/
def gen82 : Invocation := ⟨⟨82, 15, 1619⟩, [
    c!"",
    c!"        output =>",
    c!"        foo, $(ref output {",
    c!"            output.append(&bar);",
    c! r#"            output.append(Static(","));"#,
    c!"            output.space();",
    c!"        })baz",
    c!"        biz",
    c!"    "]⟩

/-- `test_tricky_continuation`, tests/test_token_gen.rs 76-107. -/
example : made (facts [] (scopes := [([c!"output.append(&bar);", c! r#"output.append(Static(","));"#, c!"output.space();"],
      [.append (s c!"bar"), .append (s [',']), .space])])) gen82 true =
    some [s c!"foo,", .space, s c!"bar", s [','], .space, s c!"baz", .push, s c!"biz"] := by decide +kernel

/-- `quote_in!`, tests/test_token_gen.rs 115-119. -/
def gen115 : Invocation := ⟨⟨115, 15, 2315⟩, [
    c!" a =>",
    c!"        a",
    c!"            b",
    c!"        c",
    c!"    "]⟩

/-- `quote_in!`, tests/test_token_gen.rs 134-139. -/
def gen134 : Invocation := ⟨⟨134, 15, 2634⟩, [
    c!"",
    c!"        b =>",
    c!"        a",
    c!"            b",
    c!"        c",
    c!"    "]⟩

/-- `test_indentation`, tests/test_token_gen.rs 110-151. -/
example : made {} gen115 true = some [s ['a'], .indentation 1, s ['b'], .indentation (-1), s ['c']] ∧
  made {} gen134 true = some [s ['a'], .indentation 1, s ['b'], .indentation (-1), s ['c']] := by decide +kernel

/-- `quote!`, tests/test_token_gen.rs 155-157. -/
def gen155 : Invocation := ⟨⟨155, 39, 2976⟩, [
    c!"",
    c!"        foo $(for (a, b) in (0..3).zip(3..6) => $a $b)",
    c!"    "]⟩

/-- `quote!`, tests/test_token_gen.rs 176-178. -/
def gen176 : Invocation := ⟨⟨176, 39, 3454⟩, [
    c!"",
    c!"        foo $(for (a, b) in (0..3).zip(3..6) { $a $b })",
    c!"    "]⟩

/-- `test_repeat`, tests/test_token_gen.rs 154-196. -/
example : let t := facts [] (iters := [(c!"(a, b)", c!"(0..3).zip(3..6)",
      [[(['a'], ['0']), (['b'], ['3'])], [(['a'], ['1']), (['b'], ['4'])], [(['a'], ['2']), (['b'], ['5'])]])])
  let out := some [s c!"foo", .space, b ['0'], .space, b ['3'], b ['1'], .space, b ['4'], b ['2'], .space, b ['5']]
  made t gen155 = out ∧ made t gen176 = out := by decide +kernel

/-- `quote!`, tests/test_token_gen.rs 200-202. -/
def gen200 : Invocation := ⟨⟨200, 39, 3967⟩, [
    c!"",
    c! r#"        You are:$("fine")"#,
    c!"    "]⟩

/-- `test_tight_quote`, tests/test_token_gen.rs 199-211. -/
example : made {} gen200 = some [s c!"You", .space, s c!"are:fine"] := by decide +kernel

/-- `quote!`, tests/test_token_gen.rs 216-218. -/
def gen216 : Invocation := ⟨⟨216, 39, 4241⟩, [
    c!"",
    c!"        You are: $(for v in 0..3 join (, ) => $v)",
    c!"    "]⟩

/-- `test_tight_repitition`, tests/test_token_gen.rs 214-235. -/
example : made (facts [] (iters := [(['v'], c!"0..3", [[(['v'], ['0'])], [(['v'], ['1'])], [(['v'], ['2'])]])])) gen216 =
    some [s c!"You", .space, s c!"are:", .space, b ['0'], s [','], .space, b ['1'], s [','], .space, b ['2']] := by decide +kernel

/-- `quote!`, tests/test_token_gen.rs 243-251. -/
def gen243 : Invocation := ⟨⟨243, 39, 4783⟩, [
    c!"",
    c!"        $(if a => foo)",
    c!"        $(if a { foo2 })",
    c!"        $(if b { bar })",
    c!"        $(if b => bar2)",
    c!"        $(if a => baz)",
    c!"        $(if a { baz2 })",
    c!"        $(if b { not_biz } else { biz })",
    c!"    "]⟩

/-- `test_if`, tests/test_token_gen.rs 238-266. -/
example : made (facts [] (tests := [['a']])) gen243 =
    some [s c!"foo", .push, s c!"foo2", .push, s c!"baz", .push, s c!"baz2", .push, s c!"biz"] := by decide +kernel

/-- `quote!`, tests/test_token_gen.rs 277-279. -/
def gen277 : Invocation := ⟨⟨277, 16, 5424⟩, [
    c!"",
    c!"            $(match alt { Alt::A => a, Alt::B => b })",
    c!"        "]⟩

/-- `quote!`, tests/test_token_gen.rs 283-285. -/
def gen283 : Invocation := ⟨⟨283, 16, 5553⟩, [
    c!"",
    c!"            $(match alt { Alt::A => { a }, Alt::B => { b } })",
    c!"        "]⟩

/-- `quote!`, tests/test_token_gen.rs 289-291. -/
def gen289 : Invocation := ⟨⟨289, 16, 5707⟩, [
    c!"",
    c!"            $(match alt { Alt::A if cond => { a }, _ => { b } })",
    c!"        "]⟩

/-- `test_match`, tests/test_token_gen.rs 269-323. -/
example : let alt := fun a => facts [] (picks := [(c!"alt", a, none)])
  made (alt c!"Alt::A") gen277 = some [s ['a']] ∧ made (alt c!"Alt::B") gen277 = some [s ['b']] ∧
  made (alt c!"Alt::A") gen283 = some [s ['a']] ∧ made (alt c!"Alt::B") gen283 = some [s ['b']] ∧
  made (facts [] (picks := [(c!"alt", c!"Alt::A", some c!"cond"), (c!"alt", ['_'], none)])) gen289 = some [s ['a']] ∧
  made (facts [] (picks := [(c!"alt", ['_'], none)])) gen289 = some [s ['b']] := by decide +kernel

/-- `quote!`, tests/test_token_gen.rs 327-329. -/
def gen327 : Invocation := ⟨⟨327, 39, 6374⟩, [
    c!"",
    c!"        $(let x = 1) $x",
    c!"    "]⟩

/-- `quote!`, tests/test_token_gen.rs 337-339. -/
def gen337 : Invocation := ⟨⟨337, 39, 6549⟩, [
    c!"",
    c! r#"        $(let (a, b) = ("c", "d")) $a, $b"#,
    c!"    "]⟩

/-- `quote!`, tests/test_token_gen.rs 356-358. -/
def gen356 : Invocation := ⟨⟨356, 39, 6936⟩, [
    c!"",
    c!"        $(let a = baz(x)) $a",
    c!"    "]⟩

/-- `test_let`, tests/test_token_gen.rs 326-364. -/
example : made (facts [] (binds := [(['x'], ['1'], fun _ => [(['x'], ['1'])])])) gen327 = some [.space, b ['1']] ∧
  made (facts [] (binds := [(c!"(a, b)", c! r#"("c", "d")"#, fun _ => [(['a'], ['c']), (['b'], ['d'])])])) gen337 =
    some [.space, b ['c'], s [','], .space, b ['d']] ∧
  made (facts [] (binds := [(['a'], c!"baz(x)", fun _ => [(['a'], c!"barbaz")])])) gen356 = some [.space, b c!"barbaz"] := by decide +kernel

/-- `quote!`, tests/test_token_gen.rs 381-389. -/
def gen381 : Invocation := ⟨⟨381, 37, 7401⟩, [
    c!"",
    c!"        $(let mut items = path.split('.'))",
    c!"        $(if let Some(first) = items.next() =>",
    c!"            First is $first",
    c!"        )",
    c!"        $(if let Some(second) = items.next() =>",
    c!"            Second is $second",
    c!"        )",
    c!"    "]⟩

/-- `test_mutable_let`, tests/test_token_gen.rs 378-407. The state of the iterator is not modelled; the conditions hold. -/
example : made (facts [(c!"first", [.append (b ['A'])]), (c!"second", [.append (b ['B'])])]
      (tests := [c!"let Some(first) = items.next()", c!"let Some(second) = items.next()"])) gen381 =
    some [.push, s c!"First", .space, s c!"is", .space, b ['A'], .push, s c!"Second", .space, s c!"is", .space, b ['B']] := by decide +kernel

/-- `quote!`, tests/test_token_gen.rs 414-416. -/
def gen414 : Invocation := ⟨⟨414, 39, 8188⟩, [
    c!"",
    c!"        $(for _ in 0..3 join(,) =>)",
    c!"    "]⟩

/-- `quote!`, tests/test_token_gen.rs 423-425. -/
def gen423 : Invocation := ⟨⟨423, 39, 8370⟩, [
    c!"",
    c!"        $(for _ in 0..3 join( ,) =>)",
    c!"    "]⟩

/-- `quote!`, tests/test_token_gen.rs 432-434. -/
def gen432 : Invocation := ⟨⟨432, 39, 8567⟩, [
    c!"",
    c!"          $(for _ in 0..3 join(, ) =>)",
    c!"    "]⟩

/-- `quote!`, tests/test_token_gen.rs 441-443. -/
def gen441 : Invocation := ⟨⟨441, 39, 8766⟩, [
    c!"",
    c!"          $(for _ in 0..3 join( , ) =>)",
    c!"    "]⟩

/-- `test_empty_loop_whitespace`, tests/test_token_gen.rs 410-449. -/
example : let t := facts [] (iters := [(['_'], c!"0..3", [[], [], []])])
  made t gen414 = some [s [','], s [',']] ∧ made t gen423 = some [.space, s [','], .space, s [',']] ∧
  made t gen432 = some [s [','], .space, s [','], .space] ∧
  made t gen441 = some [.space, s [','], .space, s [','], .space] := by decide +kernel

/-- `quote!`, tests/test_token_gen.rs 453-457. -/
def gen453 : Invocation := ⟨⟨453, 39, 9013⟩, [
    c!"",
    c!"        a",
    c!"            $(for _ in 0..3 =>)",
    c!"        b",
    c!"    "]⟩

/-- `quote!`, tests/test_token_gen.rs 467-471. -/
def gen467 : Invocation := ⟨⟨467, 39, 9245⟩, [
    c!"",
    c!"        a",
    c!"            $(if false {})",
    c!"        b",
    c!"    "]⟩

/-- `quote!`, tests/test_token_gen.rs 481-485. -/
def gen481 : Invocation := ⟨⟨481, 39, 9472⟩, [
    c!"",
    c!"        a",
    c!"            $(ref _tokens =>)",
    c!"        b",
    c!"    "]⟩

/-- `test_indentation_empty`, tests/test_token_gen.rs 452-494. -/
example : made (facts [] (iters := [(['_'], c!"0..3", [[], [], []])])) gen453 = some [s ['a'], s ['b']] ∧
  made {} gen467 = some [s ['a'], s ['b']] ∧ made {} gen481 = some [s ['a'], s ['b']] := by decide +kernel

/-- `quote!`, tests/test_token_gen.rs 498-504. -/
def gen498 : Invocation := ⟨⟨498, 39, 9747⟩, [
    c!"",
    c!"        if a:",
    c!"            if b:",
    c!"                foo",
    c!"        else:",
    c!"            c",
    c!"    "]⟩

/-- `quote!`, tests/test_token_gen.rs 526-534. -/
def gen526 : Invocation := ⟨⟨526, 39, 10368⟩, [
    c!"",
    c!"        if a:",
    c!"            if b:",
    c!"                foo",
    c!"",
    c!"        $(if false => bar)",
    c!"",
    c!"        $(if true => baz)",
    c!"    "]⟩

/-- `test_indentation_management`, tests/test_token_gen.rs 497-553. -/
example : made {} gen498 = some [s c!"if", .space, s c!"a:", .indentation 1, s c!"if", .space, s c!"b:", .indentation 1, s c!"foo",
    .indentation (-2), s c!"else:", .indentation 1, s ['c'], .indentation (-1)] ∧
  made (facts [] (tests := [c!"true"])) gen526 = some [s c!"if", .space, s c!"a:", .indentation 1, s c!"if", .space, s c!"b:",
    .indentation 1, s c!"foo", .indentation (-2), .line, s c!"baz"] := by decide +kernel

/-- `quote!`, tests/test_token_gen.rs 557-563. -/
def gen557 : Invocation := ⟨⟨557, 41, 11005⟩, [
    c!"",
    c!"        def foo():",
    c!"            pass",
    c!"",
    c!"        def bar():",
    c!"            pass",
    c!"    "]⟩

/-- `test_indentation_management2`, tests/test_token_gen.rs 556-590. -/
example : made {} gen557 = some [s c!"def", .space, s c!"foo():", .indentation 1, s c!"pass", .indentation (-1), .line, s c!"def",
    .space, s c!"bar():", .indentation 1, s c!"pass", .indentation (-1)] ∧
  (run (ι := Python.Import) {} gen557).bind (fun l => toFileVec Python.lang cfg [l]) =
    some [c!"def foo():", c!"    pass", c!"", c!"def bar():", c!"    pass"] := by decide +kernel

/-- `quote!`, tests/test_token_gen.rs 594-597. -/
def gen594 : Invocation := ⟨⟨594, 43, 11769⟩, [
    c!"",
    c!"        fn foo() {",
    c!"        }",
    c!"    "]⟩

/-- `quote_in!`, tests/test_token_gen.rs 601-605. -/
def gen601 : Invocation := ⟨⟨601, 15, 11842⟩, [
    c!" tokens =>",
    c!"        $(if false =>)",
    c!"        fn bar() {",
    c!"        }",
    c!"    "]⟩

/-- `test_lines`, tests/test_token_gen.rs 593-634. -/
example : (do
      let t ← gen594.make .nightly (Facts.host (ι := Rust.Import) {}) []
      let t ← gen601.runIn .nightly (Facts.host (ι := Rust.Import) {}) [] t.line
      pure t.items) =
    some [s c!"fn", .space, s c!"foo()", .space, s ['{'], .push, s ['}'], .line, s c!"fn", .space, s c!"bar()", .space, s ['{'],
      .push, s ['}']] := by decide +kernel

/-- `quote!`, tests/test_indentation_rules.rs 5. -/
def rule5 : Invocation := ⟨⟨5, 37, 121⟩, [c!"fn     test()"]⟩

/-- `quote!`, tests/test_indentation_rules.rs 7-14. -/
def rule7 : Invocation := ⟨⟨7, 38, 176⟩, [
    c!"",
    c!"        fn test() {",
    c! r#"            println!("Hello...");"#,
    c!"",
    c!"",
    c! r#"            println!("... World!");"#,
    c!"        }",
    c!"    "]⟩

/-- `quote!`, tests/test_indentation_rules.rs 16-21. -/
def rule16 : Invocation := ⟨⟨16, 38, 325⟩, [
    c!"",
    c!"        fn test() {",
    c! r#"            println!("Hello...");"#,
    c! r#"            println!("... World!");"#,
    c!"        }",
    c!"    "]⟩

/-- `test_indentation_rules`, tests/test_indentation_rules.rs 4-36. -/
example : text {} rule5 = some c!"fn test()" ∧
  text {} rule7 = some c!"fn test() {\n    println!(\"Hello...\");\n\n    println!(\"... World!\");\n}" ∧
  text {} rule16 = some c!"fn test() {\n    println!(\"Hello...\");\n    println!(\"... World!\");\n}" := by decide +kernel

/-- `quote!`, tests/test_quote.rs 7-13. -/
def quote7 : Invocation := ⟨⟨7, 39, 142⟩, [
    c!"",
    c!"        fn test() -> u32 {",
    c! r#"            println!("{}", $(test));"#,
    c!"",
    c!"            42",
    c!"        }",
    c!"    "]⟩

/-- `quote!`, tests/test_quote.rs 20-26. -/
def quote20 : Invocation := ⟨⟨20, 39, 407⟩, [
    c!"",
    c!"        fn test() -> u32 {",
    c! r#"            println!("{}", $(quoted("two")));"#,
    c!"",
    c!"            42",
    c!"        }",
    c!"    "]⟩

/-- `quote!`, tests/test_quote.rs 33-39. -/
def quote33 : Invocation := ⟨⟨33, 39, 681⟩, [
    c!"",
    c!"        fn test() -> u32 {",
    c! r#"            println!("{}", $$(quoted("two")));"#,
    c!"",
    c!"            42",
    c!"        }",
    c!"    "]⟩

/-- `quote!`, tests/test_quote.rs 54. -/
def quote54 : Invocation := ⟨⟨54, 38, 1091⟩, [c!"$(a)$(b)$(c)"]⟩

/-- `quote!`, tests/test_quote.rs 61. -/
def quote61 : Invocation := ⟨⟨61, 38, 1257⟩, [c!"$$$$ $$ $$$$ $$$$ $$ $$ $$[test]"]⟩

/-- `quote!`, tests/test_quote.rs 69-74. -/
def quote69 : Invocation := ⟨⟨69, 39, 1457⟩, [
    c!"",
    c!"        // Nested factory.",
    c!"        $(ref tokens {",
    c!"            quote_in!(*tokens => fn test() -> u32 { 42 });",
    c!"        })",
    c!"    "]⟩

/-- `quote_in!`, tests/test_quote.rs 72. -/
def quote72 : Invocation := ⟨⟨72, 22, 1530⟩, [c!"*tokens => fn test() -> u32 { 42 }"]⟩

/-- `test_quote`, tests/test_quote.rs 4-47. -/
example : text (facts [(c!"test", quo c!"one")]) quote7 = some c!"fn test() -> u32 {\n    println!(\"{}\", \"one\");\n\n    42\n}" ∧
  text (facts [(c!"quoted(\"two\")", quo c!"two")]) quote20 =
    some c!"fn test() -> u32 {\n    println!(\"{}\", \"two\");\n\n    42\n}" ∧
  text {} quote33 = some c!"fn test() -> u32 {\n    println!(\"{}\", $(quoted(\"two\")));\n\n    42\n}" := by decide +kernel

/-- `test_tight_quote` and `test_escape`, tests/test_quote.rs 50-64. -/
example : text (facts [(['a'], put c!"foo"), (['b'], put c!"bar"), (['c'], put c!"baz")]) quote54 = some c!"foobarbaz" ∧
  text {} quote61 = some c!"$$ $ $$ $$ $ $ $[test]" := by decide +kernel

/-- `test_scope`, tests/test_quote.rs 67-79. -/
example : text (facts [] (scopes := [([c!"quote_in!(*tokens => fn test() -> u32 { 42 });"], calls (made {} quote72 true))])) quote69 =
    some c!"fn test() -> u32 { 42 }" := by decide +kernel

/-- `quote!`, tests/test_string.rs 5. -/
def string5 : Invocation := ⟨⟨5, 33, 106⟩, [c! r#"$[str](Hello $($(quoted("World"))))"#]⟩

/-- `quote!`, tests/test_string.rs 8. -/
def string8 : Invocation := ⟨⟨8, 33, 236⟩, [c! r#"$[str](Hello "World")"#]⟩

/-- `quote!`, tests/test_string.rs 11. -/
def string11 : Invocation := ⟨⟨11, 33, 353⟩, [c!"$[str](Hello $(World))"]⟩

/-- `quote!`, tests/test_string.rs 14. -/
def string14 : Invocation := ⟨⟨14, 31, 462⟩, [c!"$[str](Hello $(World))"]⟩

/-- `quote!`, tests/test_string.rs 21. -/
def string21 : Invocation := ⟨⟨21, 33, 648⟩, [c!"$[str](Hello $($[str]($($[str](World)))))"]⟩

/-- `quote!`, tests/test_string.rs 24. -/
def string24 : Invocation := ⟨⟨24, 31, 789⟩, [c!"$[str](Hello $($[str]($($[str](World)))))"]⟩

/-- `test_quoted`, tests/test_string.rs 4-17. -/
example : dartText (facts [(c!"quoted(\"World\")", quo c!"World")]) string5 = some c!"\"Hello ${\"World\"}\"" ∧
  dartText {} string8 = some c!"\"Hello \\\"World\\\"\"" ∧ dartText {} string11 = some c!"\"Hello $World\"" ∧
  jsText {} string14 = some c!"`Hello ${World}`" := by decide +kernel

/-- `test_string_in_string_in`, tests/test_string.rs 20-27. -/
example : dartText {} string21 = some c!"\"Hello ${\"${\"World\"}\"}\"" ∧ jsText {} string24 = some c!"`Hello ${`${\"World\"}`}`" := by decide +kernel

/-- `quote!`, tests/test_option.rs 5. -/
def option5 : Invocation := ⟨⟨5, 28, 101⟩, [c! r#"println!("{}", $(quoted("one")))"#]⟩

/-- `quote!`, tests/test_option.rs 8-15. -/
def option8 : Invocation := ⟨⟨8, 39, 215⟩, [
    c!"",
    c!"        fn test_option() -> u32 {",
    c!"            $test1",
    c!"            $test2",
    c!"",
    c!"            42",
    c!"        }",
    c!"    "]⟩

/-- `test_option`, tests/test_option.rs 4-29. -/
example : fileOf (facts [(c!"test1", [.stream ((made (facts [(c!"quoted(\"one\")", quo c!"one")]) option5).getD [])]), (c!"test2", [])]) option8 =
    some [c!"fn test_option() -> u32 {", c!"    println!(\"{}\", \"one\")", c!"", c!"    42", c!"}"] := by decide +kernel

/-- `quote!`, tests/test_register.rs 7-14. -/
def register7 : Invocation := ⟨⟨7, 39, 191⟩, [
    c!"",
    c!"        $(register(import))",
    c!"        // additional lines are ignored!",
    c!"",
    c!"        fn test() -> u32 {",
    c!"            42",
    c!"        }",
    c!"    "]⟩

/-- `test_register`, tests/test_register.rs 4-30. -/
example : fileOf (facts [(c!"register(import)", [.register ((Rust.import_ (.box c!"std::iter") (.box c!"FromIterator")).withAlias (.box ['_']))])]) register7 =
    some [c!"use std::iter::FromIterator as _;", c!"", c!"fn test() -> u32 {", c!"    42", c!"}"] := by decide +kernel

/-- `quote_in!`, tests/test_quote_in.rs 7. -/
def in7 : Invocation := ⟨⟨7, 14, 153⟩, [c!"tokens => fn hello() -> u32 { 42 }"]⟩

/-- `quote_in!`, tests/test_quote_in.rs 16. -/
def in16 : Invocation := ⟨⟨16, 14, 432⟩, [c!"*tokens => uint32"]⟩

/-- tests/test_quote_in.rs. -/
example : text {} in7 true = some c!"fn hello() -> u32 { 42 }" ∧ text {} in16 true = some c!"uint32" := by decide +kernel

/-- `quote!`, tests/test_quote_simple_expression.rs 5. -/
def simple5 : Invocation := ⟨⟨5, 38, 128⟩, [c! r#"fn $("test")()"#]⟩

/-- `quote!`, tests/test_quote_simple_expression.rs 8. -/
def simple8 : Invocation := ⟨⟨8, 23, 219⟩, [c!"test"]⟩

/-- `quote!`, tests/test_quote_simple_expression.rs 9. -/
def simple9 : Invocation := ⟨⟨9, 38, 264⟩, [c!"fn $expr()"]⟩

/-- `quote!`, tests/test_quote_simple_expression.rs 12. -/
def simple12 : Invocation := ⟨⟨12, 38, 366⟩, [c!"fn $(expr)()"]⟩

/-- `quote!`, tests/test_quote_simple_expression.rs 16. -/
def simple16 : Invocation := ⟨⟨16, 38, 501⟩, [c!"fn $(quote!(test))()"]⟩

/-- `quote!`, tests/test_quote_simple_expression.rs 16. -/
def simple16b : Invocation := ⟨⟨16, 50, 513⟩, [c!"test"]⟩

/-- tests/test_quote_simple_expression.rs. -/
example : let test : List (Call Rust.Import) := [.stream ((made {} simple8).getD [])]
  text {} simple5 = some c!"fn test()" ∧ text (facts [(c!"expr", test)]) simple9 = some c!"fn test()" ∧
  text (facts [(c!"expr", test)]) simple12 = some c!"fn test()" ∧
  text (facts [(c!"quote!(test)", [.stream ((made {} simple16b).getD [])])]) simple16 = some c!"fn test()" := by decide +kernel

/-- `quote!`, src/lib.rs 216-220. -/
def doc216 : Invocation := ⟨⟨216, 35, 0⟩, [
    c!"",
    c!"    struct Quoted {",
    c!"        field: $hash_map<u32, u32>,",
    c!"    }",
    c!""]⟩

/-- Interpolation, src/lib.rs 211-234. -/
example : fileOf (facts [(c!"hash_map", [.appendLang (Rust.import_ (.box c!"std::collections") (.box c!"HashMap"))])]) doc216 =
    some [c!"use std::collections::HashMap;", c!"", c!"struct Quoted {", c!"    field: HashMap<u32, u32>,", c!"}"] := by decide +kernel

/-- `quote!`, src/lib.rs 242-244. -/
def doc242 : Invocation := ⟨⟨242, 36, 0⟩, [
    c!"",
    c! r#"    hello $("world".to_uppercase())"#,
    c!""]⟩

/-- src/lib.rs 239-248. -/
example : text (facts [(c! r#""world".to_uppercase()"#, put c!"WORLD")]) doc242 = some c!"hello WORLD" := by decide +kernel

/-- `quote!`, src/lib.rs 303. -/
def doc303 : Invocation := ⟨⟨303, 32, 0⟩, [c! r#"foo$['\r']bar$['\n']baz$[' ']biz"#]⟩

/-- Escape sequences, src/lib.rs 298-307. -/
example : text {} doc303 = some c!"foo\nbar\n\nbaz biz" := by decide +kernel

/-- `quote!`, src/lib.rs 321-326. -/
def doc321 : Invocation := ⟨⟨321, 35, 0⟩, [
    c!"",
    c! r#"    "hello world 😊""#,
    c! r#"    $(quoted("hello world 😊"))"#,
    c! r#"    $("\"hello world 😊\"")"#,
    c! r#"    $[str](hello world $[const]("😊"))"#,
    c!""]⟩

/-- String quoting, src/lib.rs 318-338. -/
example : (run (facts [(c! r#"quoted("hello world 😊")"#, quo c!"hello world 😊")]) doc321).bind
      (fun l => toFileVec (javaLang (fun _ : Unit => [])) cfg [l]) =
    some [c! r#""hello world \ud83d\ude0a""#, c! r#""hello world \ud83d\ude0a""#, c! r#""hello world 😊""#,
      c! r#""hello world \ud83d\ude0a""#] := by decide +kernel

/-- The items for them, src/lib.rs 358-386. -/
example : made (facts [(c! r#"quoted("hello world 😊")"#, quo c!"hello world 😊")]) doc321 =
    some [.openQuote false, s c!"hello world 😊", .closeQuote, .push, .openQuote false, b c!"hello world 😊", .closeQuote, .push,
      s c! r#""hello world 😊""#, .push, .openQuote false, s c!"hello world 😊", .closeQuote] := by decide +kernel

/-- `quote!`, src/lib.rs 415. -/
def doc415 : Invocation := ⟨⟨415, 27, 0⟩, [c!"$[str](Hello $[const](smile) $world)"]⟩

/-- `quote!`, src/lib.rs 431. -/
def doc431 : Invocation := ⟨⟨431, 29, 0⟩, [c!"$[str](Hello $[const](smile) $(world))"]⟩

/-- `quote!`, src/lib.rs 434. -/
def doc434 : Invocation := ⟨⟨434, 29, 0⟩, [c!"$[str](Hello $[const](smile) $(a + b))"]⟩

/-- `quote!`, src/lib.rs 437. -/
def doc437 : Invocation := ⟨⟨437, 27, 0⟩, [c!"$[str](Hello $[const](smile) $(world))"]⟩

/-- Quoted string interpolation, src/lib.rs 410-440. -/
example : let t := facts [(c!"smile", put c!"😊")]
  jsText t doc415 = some c!"`Hello 😊 ${world}`" ∧ dartText t doc431 = some c!"\"Hello 😊 $world\"" ∧
  dartText t doc434 = some c!"\"Hello 😊 ${a + b}\"" ∧ jsText t doc437 = some c!"`Hello 😊 ${world}`" := by decide +kernel

/-- `quote!`, src/lib.rs 475-477. -/
def doc475 : Invocation := ⟨⟨475, 33, 0⟩, [
    c!"",
    c!"    Your numbers are: $(for n in numbers => $n$[' '])",
    c!""]⟩

/-- `quote!`, src/lib.rs 501-503. -/
def doc501 : Invocation := ⟨⟨501, 33, 0⟩, [
    c!"",
    c!"    Your numbers are: $(for n in numbers join (, ) => $n).",
    c!""]⟩

/-- Loops, src/lib.rs 470-507. -/
example : let t := facts [] (iters := [(['n'], c!"numbers", [[(['n'], ['3'])], [(['n'], ['4'])], [(['n'], ['5'])]])])
  text t doc475 = some c!"Your numbers are: 3 4 5" ∧ text t doc501 = some c!"Your numbers are: 3, 4, 5." := by decide +kernel

/-- `quote!`, src/lib.rs 525-529. -/
def doc525 : Invocation := ⟨⟨525, 11, 0⟩, [
    c!"Custom Greeting: $(if hello {",
    c!"        Hello $name",
    c!"    } else {",
    c!"        Goodbye $name",
    c!"    })"]⟩

/-- `quote!`, src/lib.rs 549-551. -/
def doc549 : Invocation := ⟨⟨549, 11, 0⟩, [
    c!"Custom Greeting:$(if hello {",
    c!"        $[' ']Hello $name",
    c!"    })"]⟩

/-- Conditionals, src/lib.rs 521-560. -/
example : let name := [(c!"name", put c!"John")]
  text (facts name (tests := [c!"hello"])) doc525 = some c!"Custom Greeting: Hello John" ∧
  text (facts name) doc525 = some c!"Custom Greeting: Goodbye John" ∧
  text (facts name (tests := [c!"hello"])) doc549 = some c!"Custom Greeting: Hello John" ∧
  text (facts name) doc549 = some c!"Custom Greeting:" := by decide +kernel

/-- `quote!`, src/lib.rs 575-578. -/
def doc575 : Invocation := ⟨⟨575, 11, 0⟩, [
    c!"Hello $(match name {",
    c! r#"        "John" | "Jane" => $("Random Stranger"),"#,
    c!"        other => $other,",
    c!"    })"]⟩

/-- `quote!`, src/lib.rs 597-600. -/
def doc597 : Invocation := ⟨⟨597, 11, 0⟩, [
    c!"Hello$(match name {",
    c! r#"        "John" | "Jane" => ( $("Random Stranger")),"#,
    c!"        other => ( $other),",
    c!"    })"]⟩

/-- `quote!`, src/lib.rs 622-626. -/
def doc622 : Invocation := ⟨⟨622, 11, 0⟩, [
    c!"Hello $(match name {",
    c! r#"        Greeting::Named("John") | Greeting::Named("Jane") => $("Random Stranger"),"#,
    c!"        Greeting::Named(other) => $other,",
    c! r#"        Greeting::Unknown => $("Unknown Person"),"#,
    c!"    })"]⟩

/-- Match statements, src/lib.rs 571-639. -/
example : let john := facts [] (picks := [(c!"name", c! r#""John" | "Jane""#, none)])
  let mio := facts [(c!"other", put c!"Mio")] (picks := [(c!"name", c!"other", none), (c!"name", c!"Greeting::Named(other)", none)])
  text john doc575 = some c!"Hello Random Stranger" ∧ text mio doc575 = some c!"Hello Mio" ∧
  text john doc597 = some c!"Hello Random Stranger" ∧ text mio doc597 = some c!"Hello Mio" ∧
  text (facts [] (picks := [(c!"name", c! r#"Greeting::Named("John") | Greeting::Named("Jane")"#, none)])) doc622 =
    some c!"Hello Random Stranger" ∧
  text (facts [] (picks := [(c!"name", c!"Greeting::Unknown", none)])) doc622 = some c!"Hello Unknown Person" ∧
  text mio doc622 = some c!"Hello Mio" := by decide +kernel

/-- `quote!`, src/lib.rs 652-657. -/
def doc652 : Invocation := ⟨⟨652, 33, 0⟩, [
    c!"",
    c!"    $(for name in names =>",
    c!"        $(let (first, second) = name.split_once('.').unwrap())",
    c!"        $first and $second.",
    c!"    )",
    c!""]⟩

/-- `quote!`, src/lib.rs 668-676. -/
def doc668 : Invocation := ⟨⟨668, 33, 0⟩, [
    c!"",
    c!"    $(let mut items = path.split('.'))",
    c!"    $(if let Some(first) = items.next() =>",
    c!"        First is $first",
    c!"    )",
    c!"    $(if let Some(second) = items.next() =>",
    c!"        Second is $second",
    c!"    )",
    c!""]⟩

/-- Variables, src/lib.rs 647-679. -/
example : text (facts [] (iters := [(c!"name", c!"names", [[(c!"name", c!"A.B")], [(c!"name", c!"C.D")]])])
      (binds := [(c!"(first, second)", c!"name.split_once('.').unwrap()", fun ρ =>
        if ρ.lookup c!"name" = some c!"A.B" then [(c!"first", ['A']), (c!"second", ['B'])]
        else [(c!"first", ['C']), (c!"second", ['D'])])])) doc652 = some c!"A and B.\nC and D." ∧
  text (facts [(c!"first", put ['A']), (c!"second", put ['B'])]
      (tests := [c!"let Some(first) = items.next()", c!"let Some(second) = items.next()"])) doc668 =
    some c!"First is A\nSecond is B" := by decide +kernel

/-- `quote!`, src/lib.rs 698-705. -/
def doc698 : Invocation := ⟨⟨698, 12, 0⟩, [
    c!"",
    c!"        Hello $surname$(ref toks {",
    c!"            if let Some(lastname) = lastname {",
    c!"                toks.space();",
    c!"                toks.append(lastname);",
    c!"            }",
    c!"        })",
    c!"    "]⟩

/-- Scopes, src/lib.rs 694-712. -/
example : let code : List Str := [c!"if let Some(lastname) = lastname {", c!"toks.space();", c!"toks.append(lastname);", c!"}"]
  text (facts [(c!"surname", put c!"John")] (scopes := [(code, [])])) doc698 = some c!"Hello John" ∧
  text (facts [(c!"surname", put c!"John")] (scopes := [(code, .space :: put c!"Doe")])) doc698 = some c!"Hello John Doe" := by decide +kernel

/-- `quote!`, src/lib.rs 727-733. -/
def doc727 : Invocation := ⟨⟨727, 35, 0⟩, [
    c!"",
    c!"    fn     test()     {",
    c! r#"        println!("Hello... ");"#,
    c!"",
    c! r#"        println!("World!");"#,
    c!"    }",
    c!""]⟩

/-- `quote!`, src/lib.rs 757-765. -/
def doc757 : Invocation := ⟨⟨757, 35, 0⟩, [
    c!"",
    c!"    fn test() {",
    c! r#"        println!("Hello... ");"#,
    c!"",
    c!"",
    c!"",
    c! r#"        println!("World!");"#,
    c!"    }",
    c!""]⟩

/-- `quote!`, src/lib.rs 796-802. -/
def doc796 : Invocation := ⟨⟨796, 35, 0⟩, [
    c!"",
    c!"    fn test() {",
    c! r#"            println!("Hello... ");"#,
    c!"",
    c! r#"            println!("World!");"#,
    c!"    }",
    c!""]⟩

/-- `quote!`, src/lib.rs 822-828. -/
def doc822 : Invocation := ⟨⟨822, 35, 0⟩, [
    c!"",
    c!"    fn test() {",
    c! r#"            println!("Hello... ");"#,
    c!"",
    c! r#"        println!("World!");"#,
    c!"    }",
    c!""]⟩

/-- Whitespace detection, src/lib.rs 722-832. The last one is an indentation mismatch. -/
example : let out := some [c!"fn test() {", c!"    println!(\"Hello... \");", c!"", c!"    println!(\"World!\");", c!"}"]
  fileOf {} doc727 = out ∧ fileOf {} doc757 = out ∧ fileOf {} doc796 = out ∧ made {} doc822 = none := by decide +kernel

/-- `quote_in!`, src/lib.rs 861-863. -/
def doc861 : Invocation := ⟨⟨861, 14, 0⟩, [
    c!" *t =>",
    c! r#"        println!("Hello World");"#,
    c!"    "]⟩

/-- `quote_fn!`, src/lib.rs 866-868. -/
def doc866 : Invocation := ⟨⟨866, 19, 0⟩, [
    c!"",
    c! r#"    println!("Hello World");"#,
    c!""]⟩

/-- `quote!`, src/lib.rs 870-873. -/
def doc870 : Invocation := ⟨⟨870, 34, 0⟩, [
    c!"",
    c!"    $f1",
    c!"    $f2",
    c!""]⟩

/-- `quote_fn!`, src/lib.rs 856-884. -/
example : fileOf (facts [(['f', '1'], calls (made {} doc861 true)), (['f', '2'], calls (made {} doc866))]) doc870 =
    some [c!"println!(\"Hello World\");", c!"println!(\"Hello World\");"] := by decide +kernel

/-- `quote_fn!`, src/lib.rs 891-893. -/
def doc891 : Invocation := ⟨⟨891, 15, 0⟩, [
    c!"",
    c!"        println!($[str](Hello $[const](name)))",
    c!"    "]⟩

/-- `quote_fn!`, src/lib.rs 897-899. -/
def doc897 : Invocation := ⟨⟨897, 15, 0⟩, [
    c!"",
    c!"        println!($[str](Hello $[const](first) $[const](last)))",
    c!"    "]⟩

/-- `quote!`, src/lib.rs 902-905. -/
def doc902 : Invocation := ⟨⟨902, 21, 0⟩, [
    c!"",
    c! r#"    $(greeting("Mio"));"#,
    c! r#"    $(advanced_greeting("Jane", "Doe"));"#,
    c!""]⟩

/-- `quote_fn!`, src/lib.rs 888-915. -/
example : fileOf (facts [(c! r#"greeting("Mio")"#, calls (made (facts [(c!"name", put c!"Mio")]) doc891)),
      (c! r#"advanced_greeting("Jane", "Doe")"#, calls (made (facts [(c!"first", put c!"Jane"), (c!"last", put c!"Doe")]) doc897))]) doc902 =
    some [c!"println!(\"Hello Mio\");", c!"println!(\"Hello Jane Doe\");"] := by decide +kernel

end Genco.Conformance
