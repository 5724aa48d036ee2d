# Formal model of genco in Lean 4

This document says what is modelled, how each property of `properties.jsonl`
is to be proved, and what has to be trusted. All source references are to the
pinned tree in `/repo`.

## 1. Layout

* `lean/Verif/Model/*.lean` – the code, function by function. Every definition
  cites the file and lines it mirrors.
* `lean/Verif/Spec/*.lean` – small specifications written without the model's
  helpers (string-literal decoders, name resolution, off-side rule, ...).
* `lean/Verif/Proofs/*.lean` – lemmas.
* `lean/Verif/Props/*.lean` – the property theorems (named `Cxx_...`), each with
  an `example` showing a concrete, non-trivial instance.

## 2. Modelling decisions

* Text is `List Char` (`Str`). Lean `Char` and Rust `char` are both Unicode
  scalar values. Rust compares `str` bytewise in UTF-8; the model compares code
  point lists lexicographically. That the two orders agree is proved (C95).
* `ItemStr` keeps its two constructors (`Box`, `Static`), because its derived
  `Eq`/`Ord` tell them apart.
* A `Tokens` value is its item vector plus `last_lang_item`. The vector is kept
  reversed (newest item first) so that Rust's `pop`/`push` are `tail`/`cons`;
  `Tokens.items` is the forward view.
* `i16` indentation is an unbounded `Int` in the main model. A second, checked
  model (C08) returns `none` where the Rust arithmetic would overflow, and is
  proved equal to the first inside the stated bound. A third (C86) wraps around,
  as builds without overflow checks do. `usize` is `Nat`; C93 has a model of the
  formatter with any arithmetic in its place.
* A writer is a state type with fallible `writeStr`, `writeLine`,
  `writeTrailingLine`. `FmtWriter`, `VecWriter`, `IoWriter` are instances. The
  formatter is generic in the writer, as in Rust. Errors carry the state at the
  moment of failure, so crash points can be talked about.
* A language is the record of the `Lang` callbacks. A callback that writes to
  the formatter is the list of strings it passes to `write_str`, in order.
  Callbacks of the built-in languages never do anything else.
* `format_cursor` recurses through `quoted_quote`; the model uses the number of
  remaining items as fuel (each step consumes an item).
* `BTreeMap`/`BTreeSet` are strictly sorted association lists / lists.
* Code inside the languages written with `quote!`/`quote_in!` is modelled as the
  items it adds. That these are the items the macro adds is proved (C73) from the
  source text of the invocations.
* The procedural macro is modelled from the point where token trees carry text and
  start/end positions. `Model/Lex.lean` adds a lexer and the simple expressions and
  patterns that occur in `src/lang`; hygiene is not
  modelled. The parser is written with fuel for the depth of recursion; more fuel
  never changes a result, and acceptance means acceptance with some fuel. The same
  parser written so that it tells an error from the end of the fuel never reaches the
  end of the fuel with twice as much as there are tokens (C79).
* The part of the `relative_path` crate used for JavaScript imports is written down in
  `Model/Paths.lean`. `io::Write` implementations and the allocator are outside the model.

## 3. Trusted base

* The Lean 4.33.0 kernel. Theorems depend on at most `propext`,
  `Classical.choice` and `Quot.sound`. No `sorry`, no own axioms, no
  `native_decide`.
* The reading of the Rust code that the model writes down (by inspection; the
  Rust code is not compiled or run).
* The lexer and the simple part of `syn` in `Model/Lex.lean`, which stand for the Rust
  compiler and a library (used by C73, C74, C75, C78 to C81 and C85 only). `Model/Paths.lean`, which stands for the
  `relative_path` crate (used by C84 only).
* As a check of the reading, `Props/Conformance.lean` and `Props/ConformanceLang.lean` run the
  model on the tests of the repository and on the examples of its documentation, with the output
  expected there. Left out: numbers with letters other than a type, escapes with hexadecimal digits in
  macro input, one `let` with an `if` expression. These are tests.
* The decoders and resolution rules in `Spec/`, which state the string and
  import rules of the target languages; among them the reader of `Spec/Interp`, which follows
  the nesting of strings and evaluations in JavaScript and Dart.

## 4. Plan per property

| Property | Model | Proof |
|---|---|---|
| C01–C05, C07 | `Tokens` operations, histories as lists of calls | invariants by induction over the history |
| C06, C09, C10, C17 | `Tokens` + layout stage of the formatter | normal form of a gap, computed by induction over the calls; negative witnesses for C09, C10, C17. In strings (`Seam`): the marks of the stream before give the frames of the resolve stage, which hands the gap on unchanged; what follows depends on the level only |
| C08 | checked `i16` model | bound on every intermediate counter by induction; exactly when building and formatting overflow, by the normal form and by induction (`streamLevels` for streams with strings); witness of n indents by induction |
| C11, C12, C20, C21 | generic formatter | simulation: every writer run is a replay of one event list; then per-writer replay lemmas |
| C13, C16 | `flush_whitespace` chunk loops; any stream | induction on the remaining width; for streams that are not nested, a specification in one pass (`Spec/Open`) that keeps the texts being laid out side by side, equal to the resolve stage by induction on the items |
| C14, C15, C24, C25 | event list of the formatter | factorisation into a resolve stage (items to actions) and a layout stage; induction over actions |
| C18, C19, C23 | resolve stage | recogniser for the mark language; induction |
| C22 | `quoted_quote` | equation for quoted-in-quoted; per language, exactly (`↔`) when both levels are read back: an escape takes more characters than it gives units, so a text that contains a backslash never decodes to itself (`Proofs/Raw`); negative witness |
| C26–C35, C37 | per-character escapers | round trip through an independent decoder by induction over the text; where it fails, the texts that are read back unchanged are characterised exactly (`↔`), with witnesses |
| C36 | escapers | scanner simulation by induction over the text |
| C38 | escapers + resolve stage | homomorphism |
| C39–C50 | `imports` functions and item formatting | membership/sortedness lemmas for sorted maps; resolution specs; negative witnesses. C39, C41, C42, C43 and C45 also say exactly (`↔`) when names are bound once or resolve; C40 and C50 (all but Python, JavaScript and lines of Rust) when something is repeated |
| C51 | `format_file` | layout stage started in the state after the header |
| C52–C57 | encoder state machine, string encoder | invariants and refinement to the off-side rule |
| C58 | quote tree | structural induction |
| C59 | span text parser | number printing/parsing round trip |
| C64, C65 | quote tree with positions | mutual induction over nodes, arms and parts |
| C63 | layout stage, normal form of streams | simulation between two runs of the line writer that differ by a margin |
| C66, C67 | parser with fuel | soundness and completeness with respect to an inductive grammar; monotonicity in fuel |
| C68, C69 | `Value` | structural induction; texts and links forgotten are irrelevant to the resolve stage |
| C70, C71 | comment helpers | rows of a comment through the line writer; what is written after a line break does not depend on the past; infix lemmas for the end mark |
| C72 | methods of imports | induction over the chain of calls from its end, then the file theorems of the languages |
| C73 | source text of the invocations in `src/lang` | the kernel runs lexer, parser and encoder on the text; then rewriting of the generated statements for all values |
| C74 | lexer, parser, encoder, tokens, formatter | induction over the characters of the text with a scanner for words, then C60 |
| C75 | the same, applied to its own output | words and levels of a text determine what is rendered; both are kept by rendering; induction over lines |
| C76 | encoder, tokens, formatter | steps of a template are laid out line by line; streams with the same letters render the same; simulation of the line writer on a block started in the middle of a line |
| C77 | the same with interpolations that write nothing | two templates whose calls differ only in whitespace requests between visible items reach the same state of the line writer at every visible item |
| C78 | lexer, parser, encoder, tokens, formatter | tokens of a text are its words; the parser puts a dollar together with the next word; the words of a line with holes are a row of C76; filling a line is filling its words |
| C79 | parser with fuel, both versions | every turn takes a token: the count of the tokens left is a measure for all ten parsers; tokens are not more than characters |
| C80 | lexer to file, ten languages | the stream of a text has the imports of its names and starts with text, so the claims on headers apply; C78 gives the lines of the body |
| C81 | lexer, parser, encoder, generated code, tokens, formatter, ten languages | induction over the rules for holes: text is cut into pieces that are read one by one, every hole fills a slot of C76, or none by C77, and so becomes a block itself; the variables of `$(let)` are handed on from hole to hole. A `$[str]` is read part by part, and each part adds to the lines of the string. Without line numbers the tokens are those of the lines put on one line, and their places are those of the same offsets |
| C82 | `Tokens` operations | C05, C07, and what the last call leaves |
| C83 | formatter, writers | the state behind a file is fixed but for the level; for text it makes no difference to a new one |
| C84 | `relative_path`, JavaScript imports | places as steps up and names down; normal forms of paths; the depth of a place shows that the directory of a file is never the right start |
| C85 | macros in source text, places | `bones`: nodes without places; the grammar accepts the same tokens in other places (rule induction); the lexer with places erased; content of a stream letter by letter; ink of a resolved stream |
| C86 | token stream and formatter, 16-bit arithmetic without checks | `narrow`: a stream whose counters wrap around is the unbounded one with each indentation reduced; simulation of the formatter |
| C87 | encoder, tokens, formatter | C55 for the calls, and C06 from text to text |
| C88 | tokens, formatter | normal form of every part as in C06; requests of the parts put together by induction |
| C89 | macros, formatter | what the encoder has put out first is kept by every step; statements without interpolated strings by induction over the nodes; two runs of the formatter side by side |
| C90 | formatter, escapes | induction over the stream, inside and outside a string: what a string has written so far and the escape of the rest make the literal; escapes are skipped by the reader; whitespace has no quote; per language, the strings of a file are read back exactly if each alone is (C26 to C35) |
| C91 | token stream | programs with helpers (`Work`) by induction over their nesting; associativity by splitting the middle stream at an item that is not whitespace |
| C92 | strings with evaluations | a reader of the output with a stack of strings and evaluations (`Spec/Interp`), run over the rendering by induction over the items, with the frames of the formatter beside its stack |
| C93 | formatter, `usize` arithmetic as a parameter | bound on all numbers that occur by induction over the run; for streams without strings the run is the rendering of the placed texts with the widths the arithmetic gives |
| C94 | generated code of joined loops | `while let` as a loop over elements taken or not; what it writes by induction over the elements |
| C95 | order of texts | by the length of the encodings of two characters, and the bytes where they differ first |
| C96, C97 | headers and references of Nix, Go and Dart | the header theorems C48, C44, C46; lookup of names as the manuals of the languages say (`Spec/NixNames`, `Spec/References`); an entry of a list without repetitions is the only one of its name (`Proofs/Only`) |
| C98 | imports made from texts | every conversion into `ItemStr` gives a boxed text (`Proofs/Worded`), so the sorted sets of the header theorems are sorted sets of texts |
| C99 | attributes of match arms | the loop with attributes is the loop without, then all attributes behind the braces on the first arm (`armsWith_eq`); the rest from the grammar of C67 |
| C100 | Swift and C: what names mean | from C47, with the rules of the languages on names of several modules as specification |
| C101 | messages of layout errors | where `unindents` stops in the sorted list of enclosing columns, by induction; the token that fails by induction over the tokens with the invariant of C53; reading the message back (`Spec/Advice`) |
| C102 | size of literals | case analysis of the escape of one character, then induction over the text |
| C103 | errors of nested macros | a simulation: the encoder places a piece of any kind as it places a token there, so nodes and the tokens of their outline (`Spec/Blame`) go through the same states; induction over nodes, then over the size of the macro |
| C104 | configurations and the default one (`Model/Config`, `Spec/Retab`) | from C25: the lines are the same texts on the same levels in every configuration; leading characters counted and divided give the level back |
| C105 | streams without their imports, settings of languages (`Model/Solo`) | languages that write the imports of a stream alike write it alike (induction over `resolve`); cases of the scopes of C42 and C43 |
| C106 | Java and C# files to which calls are added | the chosen class or namespace of the longer list in terms of that of the shorter one; then the exact conditions of C42 and C43 |
| C107 | streams to which calls are added | calls change only whitespace items in the end of a stream (induction over calls); what is behind a cut is resolved on its own (the seam of C88); trailing whitespace writes nothing |
| C108 | files of the other languages to which calls are added | the exact headers of C39, C41, C44-C48 for both files; a sorted list inside a sorted list is a sublist |
| C109 | the Rust code in generated statements | `Flow`, the code of a template and of statements without calls; induction over templates, for the source over `Means`. A separator is a part of its loop: the generated loop has it behind the body. `$name` in a `$[str]` is constant text (encoder of strings), not code |
| C110 | tokens of the input and what they are used for | `Used`, an alignment of tokens with uses; induction over `Means` for the parser and over templates for the encoder. Code of `$(ref _ => …)` is left out where order matters: `encode_scope` (encoder.rs 202-215) does not flush the buffer for it, so it comes before the text directly in front of it (`C110_unbound`) |
| C111 | pieces of code with line breaks between them | `Segment`, `joinedBy`; the requests of a stream are cut at the seam (`Proofs/Seam`), the gap is brought to one state of the formatter, from which text is laid out as in the beginning; at an inner level, the levels that requests pass through are levels that items pass through (`Proofs/Rise`), and the runs of the writer are compared as for C63; induction over the pieces for any number of them; pieces joined by whitespace are a piece (`own_join`), hence induction over programs of nested blocks (`Program`, `Program.lines`) |
| C112 | programs of nested blocks as bodies of files | `Program`, `Program.lines`, `Program.imports`, `under`; C111 for the body, the theorems on headers for the declarations; a body that begins with text loses no space behind a header; the stream in a C# namespace is replaced by its calls (C91) |
| C113 | programs with the same imports have the same header | `SameImports` compares the imports as sets, `several` puts programs one behind the other; C49 for each language, C111 for the lines; a permutation of the parts keeps the set; witness for two default imports in JavaScript |
| C114 | what `quote!` makes of plain texts are parts of programs | `Sources` is a tree of texts, `Sources.lines` its lines, `endLevel` the level of the last line; the marks of the macro (C60) are texts and whitespace calls that end with text, balanced (C52), so they are a piece of code by `own_join`; C67 for the only parse; witness that the level of the last line matters |
| C115 | what `quote!` makes of templates are parts of programs | `Templates` is a tree of templates, `.lines` and `.imports` what the lines and holes give; the levels the items of a block pass through are levels its requests pass through (`Track`), so blocks are pieces of code; this does not depend on where literals are cut (`own_letters`); the calls of a template (C76) are pieces with whitespace calls between them (`own_join`); collected streams are such blocks, so templates nest (`C115_stream`) |
| C116 | one file from many source texts with names in them | `Invocations` is a tree of texts, `.lines`, `.uses` and `.Makes` what they give; the rows of a text (C78) are a template whose holes show (`slots_show`), so C115 makes its stream a part of a program, and C112 gives the file; streams keep their imports (`inserted_stream`); in Java and C# the parts are rendered with the imports of all texts (`merely`), which is the language of the file |
| C60 | composition of encoder, tokens, formatter | refinement, using the results above |

A property that is false of the code gets a theorem with the negation and a
concrete witness, plus the strongest positive statement found, named
`..._partial`.

## 5. Coverage of the model

| Source | Model | Notes |
|---|---|---|
| `src/tokens/tokens.rs`, `item.rs`, `item_str.rs` | `Model/Item.lean`, `Model/Tokens.lean` | every pushing operation, `extend`, iteration over language items |
| same, 16-bit arithmetic | `Model/I16.lean` | overflow is `none` |
| same, `usize` arithmetic | `Model/Usize.lean` | addition and multiplication are a parameter: overflow is `none`, or wraps around |
| same, without overflow checks | `Model/Wrap.lean` | additions wrap around |
| `src/tokens/format_into.rs`, `quoted.rs`, `display.rs`, `static_literal.rs`, `from_fn.rs`, `register.rs`, `impl_lang!`, comment helpers of C#, Java, Dart | `Model/Values.lean` | one constructor per implementing type; clones are the same value; a closure is the list of its calls |
| `src/fmt/*.rs` | `Model/Formatter.lean`, `Model/Series.lean` | formatter, cursor look-ahead, quoting frames, the three writers |
| `imports` and `format_file` of Rust, Go, C, Swift, Dart | `Model/Header.lean`, `Model/ImportsA.lean` | import items, sorted maps, header streams, references |
| same for Python, Java, C#, JavaScript | `Model/ImportsB.lean` | JavaScript relative paths are a parameter, given by `Model/Paths.lean` |
| same for Nix | `Model/Nix.lean` | import items contain streams; the derived order of streams is the order of an encoding, proved to be the lexicographic one (`Proofs/NixOrd.lean`) |
| `import` functions and methods of imports of all languages | `Model/Builders.lean` | a chain of calls is a list of steps |
| `write_quoted`, quote and eval callbacks of all ten languages | `Model/Escape.lean` | text per character; the split of one character into several `write_str` calls is not kept |
| `genco-macros/src/encoder.rs`, `static_buffer.rs`, `requirements.rs`, `cursor.rs`, `quote.rs`, `string_parser.rs` | `Model/Macro.lean` | from the nodes that `syn` has split to the calls of the generated code |
| `genco-macros/src/quote.rs`, `quote_in.rs`, `string_parser.rs` (parsing) | `Model/MacroParse.lean` | from token trees to nodes; `syn` is a parameter |
| Rust lexing, part of `syn`, `genco-macros/build.rs` | `Model/Lex.lean` | words, decimal numbers, punctuation, simple strings and characters, line comments, groups |
| invocations of `quote!` and `quote_in!` in `src/lang` | `Model/Sources.lean` | copied from the source by a script, with line, column and offset |
| `quote!`, `quote_in!`, `quote_fn!` in `genco-macros/src/lib.rs`, `quote_in.rs`, `quote_fn.rs`, `requirements.rs` | `Model/Entry.lean` | the language check is a parameter, given for the ten languages |
| `join` with a pattern that does not take every element | `Model/Refutable.lean` | the loop ends at the first element not taken |
| `parse_match`, `encode_match` with attributes | `Model/Attributes.lean` | which tokens are an attribute, and which attributes are active, are parameters |
| `genco-macros/src/fake.rs` | `Model/Fake.lean` | `usize::MAX` is a parameter |

Simplifications in the macro model:

* A node is what one turn of the parse loop reads, with the positions found for it.
  Rust expressions, patterns and statements are opaque (`E`), their meaning is a
  parameter (`Host`): a condition that holds gives the variables of its branch (`if let`). The text `Display` gives for a token is part of the node.
* The pattern of a loop takes every element (Rust demands it without `join`). Joined
  loops with any pattern are in `Model/Refutable.lean`, proved to mean the same where
  patterns take every element.
* `Model/MacroParse.lean` has nothing behind the braces of a `match`. `parse_match` looks for
  attributes of arms there; `Model/Attributes.lean` has all of it, and C99 says how the two agree.
* Groups without delimiters, spans for diagnostics and the wording of errors are left
  out. `column - 1` is saturating, as in the code.

## 6. Properties that are false of the code

Each has a theorem (`..._witness` or `..._negative`) with a concrete witness.

* C09, C10, C17 – whitespace requests are lost when an indentation is cancelled
  by the opposite one (the merged item `indentation 0` is dropped, but the line
  request in front of it has already been absorbed), and a registration between
  two spaces hides the first from the second.
* C18 – for Dart a registration next to a single interpolated literal switches
  off the short form `$x`.
* C19 – three levels of quoting fail; unclosed quotes are accepted.
* C22 – a string quoted in a string is not escaped for the inner level.
* C25 – the newline setting shows in `to_vec` for a line break in a string
  quoted in a string.
* C28, C30–C34 – `c_family_write_quoted`, JavaScript and Dart write U+0012 as
  `\f` and U+0011 as `\v` (form feed is U+000C, vertical tab U+000B; the code has
  the decimal numbers in hexadecimal escapes).
* C29 – Java writes U+0007 as `\b` and U+0014 as `\f`.
* C30 – `\0` before a digit is not legal in strict JavaScript.
* C32 – `\'` is not legal in a Go string.
* C33, C34 – `\x` in C and C# also takes the digits that follow; in C universal
  character names below A0 are illegal.
* C35 – `${` is not escaped for Nix; other escapes than `\n \r \t` are read as
  the plain letter.
* C37 – backtick and `${` are not escaped in JavaScript templates.
* C38 – (Dart only) splitting a literal that is a whole interpolation.
* C39 – (Rust) two imports that bind the same name from different modules.
* C40, C50 – (Rust) a name stored once as `Box` and once as `Static` is printed
  twice; `use std::fmt;` is printed twice for a direct import of `fmt` from `std`
  together with a qualified import from `std::fmt`.
* C44, C46, C47, C50 – (Go, Dart, C, Swift, Python) a path stored once as `Box`
  and once as `Static` is imported twice, and all boxed paths sort before all
  static ones.
* C45 – (Python) `qualified()` with `with_alias(x)` renders `module.x`, a name the
  module does not have.
* C46 – (Dart) an alias for `dart:core` is used but never declared.
* C42 – (Java) a class of `java.lang` or of the own package is written with its
  simple name even when a foreign class of that name is imported; a class of
  `java.lang` is so written even when the own package has a class of that name.
* C43 – (C#) the name qualified because of a clash leaves its namespace in use if
  another type of it is used, so that the other one is ambiguous; a foreign type is
  written with its simple name even when the own namespace has a type of that name.
* C50 – (Java) `import a.b.c;` is printed twice for `b.c` of `a` together with `c`
  of `a.b`.
* C41, C49 – (JavaScript) of two default names of one module only the one inserted
  first is declared, so the other is unbound and the header depends on the order.
* C50 – (JavaScript) a module stored once boxed and once static is imported twice,
  which also binds the imported names twice.
* C48 – (Nix) variables and scopes used inside the value of a variable are not
  declared, nor is anything used further inside.
* C50 – (Nix) a path stored once boxed and once static is inherited twice.
* C51 – (Nix) a file that is not scoped has a function head even without imports. (Any
  language) a space asked for before a blank line before the first text of the body is
  dropped behind a header and kept without; `losesSpace` is the condition in all claims
  on files, and `C51_settled` says what happens where it does not hold.
* C54 – (macros) a line further out than all lines above is joined to the last one
  without any whitespace (the level stack is empty, so nothing is emitted).
* C55 – (macros) `""` in a macro appends an empty constant text.
* C57, C65 – (macros) a line break within `$(...)` in `$[str](...)` is accepted; with
  content on two lines the subtraction of line numbers fails, because the place of
  the content is taken to be the one of its first token.
* C70, C71 – comment helpers take texts as they are: a line break, or `*/` in a Java
  comment, ends the comment early. A comment does not end its line, and the request
  for a new line behind it is lost when `indent` and `unindent` follow.
* C73 – (C#) without line information (`build.rs` sets `proc_macro_span` on nightly and
  dev compilers only) the namespace block of the header is written on one line, so a
  line comment at the end of the body swallows the closing brace.
* C83 – a formatter used for a second file writes the whitespace in front of it, and
  keeps the level of the first: `write_trailing_line` sets the pending whitespace to
  that within a line, not to that at the start, and leaves the level as it is.
* C77 – (macros) an interpolation that writes nothing, alone on a line further in (or
  further out) than both its neighbours, makes one line of them (the repository's test
  `test_indentation_empty` expects this); at the start of a line with more on it, it
  leaves a space at the start of the line.
* C84 – (JavaScript) with a module path `foo/baz.js` the module `foo/bar.js` is imported as
  `../bar.js`, which leads to `bar.js`. No pair of paths is right.
* C85 – (Dart) an evaluation of one text has no braces, so a space in the source decides
  about braces in the output: `$(a.b)` in `$[str]` gives `$a.b`, `$(a. b)` gives `${a. b}`.
  The first is also wrong Dart: `$a.b` evaluates `a` only.
* C86 – without overflow checks, a text behind 32768 indents stands at the left margin,
  and behind 65536 indents it is not on a line of its own.
* C87 – (macros) `$['\n']` at the end of a line has no effect if the next line is further in
  or further out, and behind it on the same line a space becomes a space at the start of the
  new line.
* C92 – (Dart) `$(name)s` in a string is written `$names` and `$(a.b)` is written `$a.b`:
  an evaluation of one literal gets no braces, whatever the literal and whatever follows.
* C96 – (Nix) variables, inherits, arguments and scopes of one name are not kept apart.
* C97 – (Go) a package whose name is not the last segment of its path, and two packages of one
  name, are referred to wrongly. (Dart) an unprefixed name of a system library gives way to the
  same name of another library.
* C94 – (macros) a joined loop ends at the first element its pattern does not take and leaves
  a separator behind: `$(for Some(x) in xs join (, ) => $x)` gives `a,` for
  `[Some(a), None, Some(b)]`. Without `join` the compiler rejects such a pattern.
* C99 – (macros) an attribute before an arm of `$(match …)` is refused, and attributes behind the
  braces are taken for the first arm: `$(match x { a => …, b => … } #[cfg(any())])` has no arm `a`.
* C100 – (Swift, C) a name that two imported modules have, or two included headers declare, is
  written as it is. (Swift) a name of the standard library gives way to the same name of any
  module that is imported for another name.
* C101 – (macros) the advice in a layout error need not be the smallest change: one column short of
  a line above, the message asks for less indentation, down to the next line outside.
