{"id": "C01", "title": "Token streams are always in whitespace normal form", "statement": "After any sequence of calls on a token stream (append of any item, space, push, line, indent, unindent, register, extend, collect) iterating the stream never shows: two spaces in a row; a push directly after a space, push or line; a line directly after a line or push; a space, push, line or indentation directly before an indentation; or an indentation of zero.", "quantifier": "For every language item type and every finite history of API calls, including appending raw items and extending by other streams.", "why_tests_cant": "The collapsing rules pop an unbounded run of earlier items, so the interaction depends on the whole history; tests fix a handful of short sequences.", "anchors": ["src/tokens/tokens.rs: Tokens::space, Tokens::push, Tokens::line, Tokens::indentation, Tokens::item"]}
{"id": "C02", "title": "Iterating and re-collecting a stream is the identity", "statement": "Collecting the items of any stream built with the API into a new stream, or extending an empty stream by it, or cloning items one by one, gives a stream equal (==) to the original, including the hidden links used for import lookup.", "quantifier": "For every stream obtained from any history of API calls.", "why_tests_cant": "Needs that the normal form is a fixed point of rebuilding for all streams; a test can only rebuild particular streams.", "anchors": ["src/tokens/tokens.rs: Tokens::extend, FromIterator, IntoIterator, PartialEq", "src/tokens/format_into.rs: impl FormatInto for Tokens"]}
{"id": "C03", "title": "walk_imports finds every import exactly once, newest first", "statement": "walk_imports yields exactly the language items ever appended or registered on the stream (directly or through extend), each occurrence once, in reverse order of insertion, whatever whitespace or text was appended in between and however often items were collapsed.", "quantifier": "For every history of API calls.", "why_tests_cant": "The lookup follows an intrusive linked list of positions into a vector that other operations pop from; a dangling or skipped link only shows for particular interleavings.", "anchors": ["src/tokens/tokens.rs: Tokens::walk_imports, WalkImports::next, Tokens::lang_item, Tokens::lang_item_register"]}
{"id": "C04", "title": "Stream equality is equality of what was appended", "statement": "Two streams built by any two histories are equal (==) if and only if they show the same sequence of items once the internal link numbers are ignored.", "quantifier": "For every pair of histories of API calls.", "why_tests_cant": "Equality is derived and compares hidden link indices; that these never tell two equal-looking streams apart is a statement about all pairs of histories.", "anchors": ["src/tokens/tokens.rs: Tokens, PartialEq", "src/tokens/item.rs: Item"]}
{"id": "C05", "title": "Whitespace calls never lose, duplicate or reorder content", "statement": "The sequence of non-whitespace items (literals, language items, registrations, quote and eval marks) in the stream is exactly the sequence of such items appended, in order; space, push, line, indent and unindent never remove or move one.", "quantifier": "For every history of API calls.", "why_tests_cant": "The whitespace calls pop from the end of the item vector in a loop; tests cannot show that no history makes the loop eat content.", "anchors": ["src/tokens/tokens.rs: Tokens::push, Tokens::line, Tokens::indentation, Tokens::space"]}
{"id": "C06", "title": "Whitespace calls between two pieces of text have a history-independent meaning", "statement": "Between two consecutive non-empty literals, the rendered separator depends only on the whitespace calls made between them: with S the calls after the last indent/unindent, there is one blank line if S has a line call, otherwise one line break if S has a push call or the net indentation of the gap is non-zero, otherwise none; there is exactly one extra space iff the last call is space; and the indentation level changes by indents minus unindents.", "quantifier": "For every list of whitespace calls between any two texts, any text before and after, at any level.", "why_tests_cant": "The claim ranges over all finite call sequences and two stages of collapsing (stream and formatter).", "anchors": ["src/tokens/tokens.rs: Tokens::space/push/line/indentation", "src/fmt/formatter.rs: Formatter::push/line/space/indentation/flush_whitespace"]}
{"id": "C07", "title": "Net indentation is conserved", "statement": "The sum of all indentation items in a stream equals the number of indent calls minus the number of unindent calls (plus raw indentation items appended), however the calls are mixed with other calls.", "quantifier": "For every history of API calls.", "why_tests_cant": "Indentation items are merged and cancelled over unbounded runs.", "anchors": ["src/tokens/tokens.rs: Tokens::indentation, Tokens::indent, Tokens::unindent"]}
{"id": "C08", "title": "Indentation arithmetic overflows only past the 16-bit range", "statement": "Building and formatting a stream never overflows the 16-bit indentation counters while the history has at most 32767 indent/unindent calls; and 32768 consecutive indent calls or 32769 unindent calls do overflow (panic in debug, wrap in release). Exactly: building overflows if the indentation of one stretch of white space, counted up to one of its items, leaves the 16-bit range; formatting overflows if the indentation of some number of first items does, where a string quoted inside a string is counted on its own and nothing counts behind an illegal mark of a string.", "quantifier": "For every history of calls, with any streams interpolated; formatting for every list of items.", "why_tests_cant": "Overflow needs tens of thousands of operations mixed arbitrarily; tests do not explore this.", "anchors": ["src/tokens/tokens.rs: Tokens::indentation (n += u)", "src/fmt/formatter.rs: Formatter::indentation (indent += n)"]}
{"id": "C09", "title": "indent and unindent act like push", "statement": "Documentation says indent/unindent act like a push: text appended afterwards starts on a new line. This should hold whatever indentation calls surround it.", "quantifier": "For every sequence of whitespace calls containing an indent or unindent, between two non-empty texts.", "why_tests_cant": "Cancelling indentation is an interaction of several calls; the property is false in that corner and true otherwise, which only a characterisation for all sequences can settle.", "anchors": ["src/tokens/tokens.rs: Tokens::indent, Tokens::unindent, Tokens::indentation (docs lines 407-500)"]}
{"id": "C10", "title": "Interpolating a stream renders like writing its content in place", "statement": "Appending a separately built stream B to a stream A renders the same as performing B's calls directly on A.", "quantifier": "For every pair of histories A and B.", "why_tests_cant": "Collapsing is context dependent, so compositionality is a statement over all pairs of histories; it fails when an indentation in B cancels out inside one gap or B starts the text of the file, and holds otherwise.", "anchors": ["src/tokens/tokens.rs: Tokens::extend, Tokens::item", "src/tokens/format_into.rs: impl FormatInto for Tokens"]}
{"id": "C11", "title": "Line output and string output agree", "statement": "For every stream, to_string equals the lines of to_vec joined with the newline of the configuration; either both succeed or both fail.", "quantifier": "For every language, configuration and item stream (well formed or not).", "why_tests_cant": "Two different writers are driven by the same event stream; agreement must hold for every event sequence.", "anchors": ["src/fmt/fmt_writer.rs: FmtWriter", "src/fmt/vec_writer.rs: VecWriter", "src/tokens/tokens.rs: Tokens::to_string, Tokens::to_vec"]}
{"id": "C12", "title": "File output ends with exactly one newline", "statement": "When file rendering succeeds, to_file_string is the lines of to_file_vec joined by newline followed by one trailing newline; the formatter itself never ends with pending whitespace, so there is no blank line at the end unless a literal ends with one.", "quantifier": "For every language, configuration and stream.", "why_tests_cant": "Trailing pushes, lines and spaces in any combination must be dropped.", "anchors": ["src/fmt/formatter.rs: Formatter::write_trailing_line", "src/tokens/tokens.rs: Tokens::format_file, to_file_string, to_file_vec", "src/fmt/vec_writer.rs: write_trailing_line"]}
{"id": "C13", "title": "Indentation is rendered with exactly the right width", "statement": "Before the first text of an output line the formatter writes exactly max(level,0) * width spaces (or max(level,0) tabs) plus the pending spaces, for any level and width, although it writes them in chunks of a fixed-size buffer.", "quantifier": "For every level, every width, every pending space count, both indentation kinds.", "why_tests_cant": "The chunk loop has boundaries at 40 and 100 characters; tests use small levels.", "anchors": ["src/fmt/formatter.rs: Formatter::flush_whitespace, SPACES, TABS", "src/fmt/config.rs: Indentation"]}
{"id": "C14", "title": "No whitespace is written unless text follows", "statement": "Every newline and every indentation or separator space written by the formatter is followed, later in the output, by a non-empty text on the same line or a further newline; hence no rendered line has trailing whitespace other than what its own texts contain, and pending whitespace at the end of the stream is never written.", "quantifier": "For every stream of items.", "why_tests_cant": "The claim is about every prefix of every output.", "anchors": ["src/fmt/formatter.rs: Formatter::write_str, Formatter::flush_whitespace"]}
{"id": "C15", "title": "No leading blank lines and never two blank lines in a row", "statement": "If no literal contains a newline, the rendered lines never start with an empty line and never contain two consecutive empty lines, no matter how many push/line/indent items occur.", "quantifier": "For every stream of items whose literals have no newline.", "why_tests_cant": "Quantifies over unbounded mixes of whitespace items and invisible items.", "anchors": ["src/fmt/formatter.rs: Formatter::push, Formatter::line, Whitespace::into_indent"]}
{"id": "C16", "title": "Rendering preserves the text", "statement": "Removing spaces, tabs and newlines from the rendered output gives the concatenation of the (rendered) texts of all literals, quotes and language items with the same characters removed: formatting adds nothing but whitespace and drops nothing.", "quantifier": "For every stream and configuration.", "why_tests_cant": "Content preservation must hold for all streams.", "anchors": ["src/fmt/formatter.rs: Formatter::format_cursor"]}
{"id": "C17", "title": "Adjacent spacing collapses to a single space", "statement": "Documentation says multiple spacings in sequence are collapsed into one: between two texts on one line at most one separator space is rendered.", "quantifier": "For every history of API calls between two non-empty texts.", "why_tests_cant": "Holds when only whitespace calls lie in between, and fails when an invisible item (a registration or an empty literal) separates two space calls; tests exercise neither systematically.", "anchors": ["src/tokens/tokens.rs: Tokens::space (docs 283-315)", "src/fmt/formatter.rs: Formatter::space"]}
{"id": "C18", "title": "Registered imports are never rendered in the body", "statement": "Deleting every registration item from a stream does not change what to_string renders.", "quantifier": "For every stream of items.", "why_tests_cant": "The eval look-ahead inspects neighbouring items, so invisibility depends on context: it is false directly inside an interpolation for languages with a short form, true otherwise.", "anchors": ["src/fmt/formatter.rs: Formatter::format_cursor (Item::Register, Item::OpenEval arm)", "src/tokens/register.rs"]}
{"id": "C19", "title": "Formatting fails exactly on malformed quoting", "statement": "With a writer that does not fail, formatting a stream fails if and only if the quote/eval marks are malformed: a close without matching open, an evaluation outside a quote, an interpolated quote inside a quote; streams built from quoted() around text and $[str] strings always format successfully.", "quantifier": "For every stream of items.", "why_tests_cant": "The mark structure is a bracket language with two kinds of brackets and unbounded nesting.", "anchors": ["src/fmt/formatter.rs: Formatter::format_cursor, quoted_quote", "src/tokens/quoted.rs"]}
{"id": "C20", "title": "A failing writer receives a prefix of the output and the error is reported", "statement": "If the underlying writer fails at any call, formatting returns an error immediately, makes no further call, and what was handed to the writer before the failure is a prefix of what a non-failing writer would have received.", "quantifier": "For every stream, language, configuration and every failure point.", "why_tests_cant": "Crash points are unbounded; tests rarely inject writer failures at all.", "anchors": ["src/fmt/formatter.rs", "src/fmt/mod.rs: Write", "src/fmt/fmt_writer.rs", "src/fmt/io_writer.rs"]}
{"id": "C21", "title": "Byte output is the UTF-8 encoding of string output", "statement": "Formatting into an io writer delivers exactly the UTF-8 bytes of the string that formatting into a string writer delivers. All sinks, core::fmt::Write or io::Write, failing or not, get the same pieces of text, which do not depend on the sink.", "quantifier": "For every stream, language and configuration, and every io writer or text writer.", "why_tests_cant": "Must hold for every chunking and every Unicode text.", "anchors": ["src/fmt/io_writer.rs: IoWriter", "src/fmt/fmt_writer.rs: FmtWriter"]}
{"id": "C22", "title": "A string quoted inside a quoted string decodes back", "statement": "Quoting text s, and quoting the result inside another string, produces output whose one-level decoding is the source of a string literal that decodes back to s.", "quantifier": "For every text s and every language.", "why_tests_cant": "False for texts that need escaping: the inner text is not escaped. Only a statement over all texts separates the good and the bad cases.", "anchors": ["src/fmt/formatter.rs: Formatter::quoted_quote, Formatter::format_cursor (OpenQuote(false) if in_quote)"]}
{"id": "C23", "title": "Quote delimiters always match", "statement": "In the output of a balanced stream every quote is closed by the delimiter belonging to the delimiter that opened it (for JavaScript: backtick by backtick when it has interpolation, double quote otherwise), at every nesting depth of strings in interpolations in strings.", "quantifier": "For every balanced stream, unbounded nesting.", "why_tests_cant": "Nesting is unbounded and the kind of delimiter is remembered per frame.", "anchors": ["src/fmt/formatter.rs: Frame::has_eval, CloseQuote arm", "src/lang/js.rs: open_quote, close_quote"]}
{"id": "C24", "title": "Negative indentation renders as no indentation but is remembered", "statement": "Unindenting below zero renders at column zero, and a later indent must first make up for the deficit: the rendered level is max(0, indents - unindents so far) at every text.", "quantifier": "For every history.", "why_tests_cant": "Depends on all earlier indentation calls.", "anchors": ["src/fmt/formatter.rs: Formatter::flush_whitespace (u16::try_from / max 0), Formatter::indentation"]}
{"id": "C25", "title": "Configuration changes only whitespace", "statement": "Changing the newline sequence or indentation kind changes nothing but line separators and leading indentation: the lines of to_vec do not depend on the newline setting, and the lines with their leading indentation removed do not depend on the indentation setting.", "quantifier": "For every stream, and every pair of configurations.", "why_tests_cant": "Relational property over all streams and pairs of configurations.", "anchors": ["src/fmt/config.rs: Config", "src/fmt/formatter.rs"]}
{"id": "C26", "title": "Rust string literals decode to the original text", "statement": "A text quoted for Rust is a Rust string literal body that decodes, by the Rust escape rules, to the same text, for every Unicode text.", "quantifier": "For every sequence of Unicode scalar values.", "why_tests_cant": "Over a million code points and unbounded strings; tests sample a few.", "anchors": ["src/lang/rust.rs: write_quoted"]}
{"id": "C27", "title": "Swift string literals decode to the original text", "statement": "A text quoted for Swift decodes, by Swift escape rules, to the same text, and can contain no interpolation.", "quantifier": "For every sequence of Unicode scalar values.", "why_tests_cant": "As above.", "anchors": ["src/lang/swift.rs: write_quoted"]}
{"id": "C28", "title": "Python string literals decode to the original text", "statement": "A text quoted for Python decodes, by Python escape rules, to the same text.", "quantifier": "For every sequence of Unicode scalar values.", "why_tests_cant": "False for exactly two control characters (U+0011, U+0012), true for all texts without them; sampling does not find this.", "anchors": ["src/lang/mod.rs: c_family_write_quoted", "src/lang/python.rs: write_quoted"]}
{"id": "C29", "title": "Java string literals decode to the original text", "statement": "A text quoted for Java decodes, by Java unicode-escape and escape rules over UTF-16, to the same text.", "quantifier": "For every sequence of Unicode scalar values.", "why_tests_cant": "False for exactly U+0007 and U+0014; true otherwise, including astral characters via surrogate pairs.", "anchors": ["src/lang/java/mod.rs: write_quoted"]}
{"id": "C30", "title": "JavaScript string literals decode to the original text", "statement": "A text quoted for JavaScript without interpolation decodes, by the JavaScript double-quoted string rules, to the same text.", "quantifier": "For every sequence of Unicode scalar values.", "why_tests_cant": "False for U+0011, U+0012 and for NUL followed by a digit; true otherwise.", "anchors": ["src/lang/js.rs: write_quoted"]}
{"id": "C31", "title": "Dart string literals decode to the original text", "statement": "A text quoted for Dart decodes, by Dart rules, to the same text with no interpolation.", "quantifier": "For every sequence of Unicode scalar values.", "why_tests_cant": "False for U+0011 and U+0012; true otherwise.", "anchors": ["src/lang/dart/mod.rs: write_quoted"]}
{"id": "C32", "title": "Go string literals decode to the original text", "statement": "A text quoted for Go is a legal Go interpreted string literal that decodes to the same text.", "quantifier": "For every sequence of Unicode scalar values.", "why_tests_cant": "False for single quotes (illegal escape) and two control characters; true otherwise.", "anchors": ["src/lang/go.rs: write_quoted", "src/lang/mod.rs: c_family_write_quoted"]}
{"id": "C33", "title": "C string literals decode to the original text", "statement": "A text quoted for C decodes, by C escape rules with maximal hexadecimal escapes, to the same text.", "quantifier": "For every sequence of Unicode scalar values.", "why_tests_cant": "False when a hexadecimal escape is followed by a hexadecimal digit; true otherwise except two control characters.", "anchors": ["src/lang/c.rs: write_quoted", "src/lang/mod.rs: c_family_write_quoted"]}
{"id": "C34", "title": "C# string literals decode to the original text", "statement": "A text quoted for C# decodes, by C# rules where a hexadecimal escape takes one to four digits, to the same text.", "quantifier": "For every sequence of Unicode scalar values.", "why_tests_cant": "False when a two-digit escape is followed by a hexadecimal digit; true otherwise except two control characters.", "anchors": ["src/lang/csharp/mod.rs: write_quoted", "src/lang/mod.rs: c_family_write_quoted"]}
{"id": "C35", "title": "Nix string literals decode to the original text", "statement": "A text quoted for Nix decodes, by Nix rules, to the same text and contains no antiquotation.", "quantifier": "For every sequence of Unicode scalar values.", "why_tests_cant": "False in many cases (antiquotation is not escaped, Nix has no hexadecimal or unicode escapes); true for printable ASCII texts without an antiquotation opener.", "anchors": ["src/lang/nix.rs: write_quoted"]}
{"id": "C36", "title": "A quoted text cannot break out of its string literal", "statement": "For every built-in language with double-quoted strings and every text, a lexer that reads the quoted output from the opening quote, skipping one character after each backslash, stops exactly at the closing quote written by the library, and no raw newline occurs in between.", "quantifier": "For every language with double-quoted strings and every text.", "why_tests_cant": "A security property over all texts.", "anchors": ["src/lang/mod.rs: c_family_write_quoted", "src/lang/{rust,js,java,dart,swift}: write_quoted"]}
{"id": "C37", "title": "Text in a JavaScript template literal stays text", "statement": "Constant text inside an interpolated JavaScript string is rendered so that the template literal's text decodes back to it: it cannot close the template or open an interpolation.", "quantifier": "For every text.", "why_tests_cant": "False: backtick and ${ are not escaped; true for texts with neither.", "anchors": ["src/lang/js.rs: open_quote, write_quoted"]}
{"id": "C38", "title": "Quoting is insensitive to how text is split", "statement": "Quoting a text in one literal or split into any number of consecutive literals inside the same quote renders the same output.", "quantifier": "For every text, every way to split it, every built-in language.", "why_tests_cant": "All splits of all texts.", "anchors": ["src/fmt/formatter.rs: format_cursor Literal arm", "src/lang/*: write_quoted"]}
{"id": "C39", "title": "Rust: every import used in the body is brought into scope", "statement": "For each import item rendered in a Rust file, resolving the rendered path through the use declarations of the same file gives module::name again, provided no two imports claim the same local name.", "quantifier": "For every set of imports with any combination of direct, qualified, aliased and module-aliased forms.", "why_tests_cant": "Grouping by module with five import modes; tests list a few examples.", "anchors": ["src/lang/rust.rs: Rust::imports, Import::format, format_file"]}
{"id": "C40", "title": "Rust: the use list is sorted, minimal and order independent", "statement": "The use declarations mention each module in at most two declarations groups in sorted order, contain each imported item once, contain nothing that was not imported, and do not depend on the order in which imports were appended.", "quantifier": "For every multiset and order of imports.", "why_tests_cant": "Ordering and deduplication over all permutations.", "anchors": ["src/lang/rust.rs: Rust::imports"]}
{"id": "C41", "title": "JavaScript: every used name is imported", "statement": "For each import item rendered in a JavaScript file the import declarations bind the rendered local name to the requested export of the requested module.", "quantifier": "For every set of imports (named, aliased, default, wildcard).", "why_tests_cant": "False when two different default names are used for one module (only one is kept); true otherwise.", "anchors": ["src/lang/js.rs: JavaScript::imports, Import::format"]}
{"id": "C42", "title": "Java: every rendered class reference resolves to the intended class", "statement": "In a rendered Java file a reference written unqualified resolves, through the import declarations, java.lang and the file's own package, to the package the item asked for; two different classes never share an unqualified name.", "quantifier": "For every set of imports and file package.", "why_tests_cant": "Conflict resolution depends on all imports; false when a java.lang or same-package class shares a simple name with an imported one.", "anchors": ["src/lang/java/mod.rs: Java::imports, Import::format"]}
{"id": "C43", "title": "C#: every rendered type reference resolves to the intended type", "statement": "In a rendered C# file an unqualified reference resolves, through the using declarations that were chosen and the file's namespace, to the namespace the item asked for; conflicting names are qualified.", "quantifier": "For every set of imports and file namespace.", "why_tests_cant": "Same; false when a name of the file's own namespace collides with an imported one.", "anchors": ["src/lang/csharp/mod.rs: Csharp::imports, Import::format"]}
{"id": "C44", "title": "Go: one sorted import per package, and references match", "statement": "A Go file imports each referenced package path exactly once in sorted order, and references are written as the last path segment, a dot, and the name.", "quantifier": "For every multiset of imports.", "why_tests_cant": "All permutations and duplicates.", "anchors": ["src/lang/go.rs: Go::imports, Import::format"]}
{"id": "C45", "title": "Python: every rendered reference is bound by an import", "statement": "In a rendered Python file each import item's rendered expression resolves through the import statements to the requested object.", "quantifier": "For every set of direct, aliased, qualified and module-aliased imports.", "why_tests_cant": "Six combinations of modes grouped by module; false for a qualified import with an item alias.", "anchors": ["src/lang/python.rs: Python::imports, Import::format"]}
{"id": "C46", "title": "Dart: every referenced library is imported once", "statement": "A Dart file contains one import per (path, alias) pair that is used, sorted, and none for the core library.", "quantifier": "For every multiset of imports.", "why_tests_cant": "All permutations and duplicates; a core-library import with an alias leaves a dangling prefix.", "anchors": ["src/lang/dart/mod.rs: Dart::imports, Import::format"]}
{"id": "C47", "title": "C and Swift: includes and imports are complete, sorted and unique", "statement": "A C file includes every header of a used import exactly once (system and local forms kept apart), sorted; a Swift file imports every used module exactly once, sorted.", "quantifier": "For every multiset of imports.", "why_tests_cant": "All permutations and duplicates.", "anchors": ["src/lang/c.rs: C::imports", "src/lang/swift.rs: Swift::imports"]}
{"id": "C48", "title": "Nix: every identifier an expression needs is declared", "statement": "A Nix file declares as function argument, let-binding or with-scope every import item reachable from the body, including those used inside the values of let-bound variables.", "quantifier": "For every nesting of imports.", "why_tests_cant": "False for variables nested two levels deep; true for one level.", "anchors": ["src/lang/nix.rs: arguments, withs, imports"]}
{"id": "C49", "title": "Import headers do not depend on the order of use", "statement": "For every built-in language except JavaScript default imports and Java/C# conflict resolution order, permuting or duplicating the imports of a stream gives the same header.", "quantifier": "For every permutation of every list of imports.", "why_tests_cant": "All permutations.", "anchors": ["src/lang/*: imports"]}
{"id": "C50", "title": "Imports are not repeated", "statement": "The import declarations of a rendered file contain no line twice.", "quantifier": "For every multiset of imports.", "why_tests_cant": "False when the same module text is given once as static and once as owned text, because the two forms compare different; true when all texts have one form.", "anchors": ["src/tokens/item_str.rs: ItemStr (derived Ord/Eq)", "src/lang/*: imports"]}
{"id": "C51", "title": "Header and body are separated by exactly one blank line", "statement": "If the file has imports and the body has text, the rendered file is the import lines, one blank line, and the lines the body would render to on its own; without imports it is exactly the body.", "quantifier": "For every list of imports and every body stream, indentation balanced or not, except that a space asked for before a blank line before the first text is kept only where there is no header.", "why_tests_cant": "The same formatter state is threaded from header to body; must hold for all bodies.", "anchors": ["src/lang/*: format_file", "src/fmt/formatter.rs"]}
{"id": "C52", "title": "quote! output has balanced indentation", "statement": "The calls generated by one successful quote! expansion contain as many indents as unindents, and the running difference never goes below zero.", "quantifier": "For every token layout accepted by the macro.", "why_tests_cant": "All layouts of all token sequences.", "anchors": ["genco-macros/src/encoder.rs: tokenize_whitespace, finalize"]}
{"id": "C53", "title": "quote! follows the off-side rule", "statement": "For tokens laid out on lines, the indentation level given to each line is the one of the off-side rule: a line further in than the previous opens one level, a line further out returns to the enclosing level with the same column, and a column that matches no open level is a compile error.", "quantifier": "For every sequence of positioned tokens whose lines never start left of the first line.", "why_tests_cant": "All column layouts; tests use a few.", "anchors": ["genco-macros/src/encoder.rs: tokenize_whitespace"]}
{"id": "C54", "title": "quote! separates tokens exactly as in the source", "statement": "Between two neighbouring tokens on one source line a space is generated iff their columns are not adjacent; tokens on different lines are separated by a line break, with one blank line iff at least one source line lies between.", "quantifier": "For every sequence of positioned tokens.", "why_tests_cant": "False when a later line starts left of the first line: then nothing separates the tokens. True otherwise.", "anchors": ["genco-macros/src/encoder.rs: tokenize_whitespace, step"]}
{"id": "C55", "title": "quote! preserves literal text and order", "statement": "The static text generated by a macro expansion, concatenated in call order and with whitespace calls removed, equals the concatenation of the source token texts; no empty literal is generated; text and interpolations stay in source order.", "quantifier": "For every sequence of source tokens.", "why_tests_cant": "Static buffering merges arbitrary runs.", "anchors": ["genco-macros/src/encoder.rs", "genco-macros/src/static_buffer.rs"]}
{"id": "C56", "title": "join puts the separator exactly between elements", "statement": "A quoted loop over n elements with join emits the body n times and the separator n-1 times, alternating, starting and ending with the body.", "quantifier": "For every list of elements.", "why_tests_cant": "Induction over the number of iterations.", "anchors": ["genco-macros/src/encoder.rs: encode_repeat"]}
{"id": "C57", "title": "$[str] keeps the exact inner spacing", "statement": "The static text of a $[str](...) on one line is the source text between the parentheses with every run of spaces kept at its exact width, and a line break inside is a compile error.", "quantifier": "For every sequence of positioned tokens.", "why_tests_cant": "All column layouts.", "anchors": ["genco-macros/src/string_parser.rs: Encoder, StringParser::parse"]}
{"id": "C58", "title": "Interpolation support is demanded exactly when needed", "statement": "A macro expansion requires the target language to support interpolation if and only if some $[str] anywhere in it, at any nesting, contains an interpolation.", "quantifier": "For every quote tree.", "why_tests_cant": "Unbounded nesting of control flow.", "anchors": ["genco-macros/src/requirements.rs", "genco-macros/src/quote.rs", "genco-macros/src/encoder.rs"]}
{"id": "C59", "title": "Span text round trip", "statement": "The fallback position reader recovers start and end from the debug text of a span for all positions, and rejects texts without the range form.", "quantifier": "For every pair of positions.", "why_tests_cant": "All numbers.", "anchors": ["genco-macros/src/fake.rs: find_line_column"]}
{"id": "C60", "title": "End to end: quote! reproduces the source layout", "statement": "Quoting a block of plain tokens and rendering it to lines gives, for every source line, the tokens of the line separated by single spaces where the source has spaces, indented by the off-side level times the configured width, with runs of blank lines collapsed to one.", "quantifier": "For every block layout accepted by the macro whose lines never start left of the first.", "why_tests_cant": "Combines macro, stream and formatter for all inputs.", "anchors": ["genco-macros/src/encoder.rs", "src/tokens/tokens.rs", "src/fmt/formatter.rs"]}
{"id": "C61", "title": "String literals contain only safe characters", "statement": "A quoted text rendered in Java or a language of the C family (C, C#, Python, Go, Nix) consists of printable ASCII only, and in every language it contains no control character, so it never breaks the line it is on.", "quantifier": "For every text.", "why_tests_cant": "All Unicode texts.", "anchors": ["src/lang/mod.rs: c_family_write_quoted", "src/lang/*: write_quoted"]}
{"id": "C62", "title": "Quoting never confuses two texts", "statement": "In every language two different texts are rendered to two different string literals.", "quantifier": "For every pair of texts, also the ones whose literals are not read back correctly.", "why_tests_cant": "All pairs of texts; escapes of variable length.", "anchors": ["src/lang/mod.rs: c_family_write_quoted", "src/lang/*: write_quoted"]}
{"id": "C63", "title": "Indenting a block moves its lines and nothing else", "statement": "A stream that stands on lines of its own (starts and ends with text, never further out than it starts, ends on the level it starts on), put between an opening text with indent and a closing text with unindent, renders to exactly its own lines moved in by one level more than the opening line, blank lines staying blank; the closing text is back on the level of the opening one.", "quantifier": "For every opening stream, every such body with strings and language items, every indentation setting.", "why_tests_cant": "All bodies; merging of whitespace at both seams and the running indentation must work for arbitrary streams.", "anchors": ["src/tokens/tokens.rs: indent, unindent, extend", "src/fmt/formatter.rs: flush_whitespace", "src/lang/csharp/mod.rs: format_file"]}
{"id": "C64", "title": "Macros on one line cannot fail and never break lines", "statement": "If all positions are on one line, as they are when positions are recovered from span texts, the macro is accepted, and the generated calls contain no line break and no change of indentation except those of control functions and Rust code.", "quantifier": "For every quote tree with loops, conditions, matches, strings and groups at any nesting.", "why_tests_cant": "All trees; on a compiler with positions the fallback is never run.", "anchors": ["genco-macros/src/fake.rs: cursor, join", "genco-macros/src/encoder.rs: tokenize_whitespace", "genco-macros/src/string_parser.rs: flush_whitespace"]}
{"id": "C65", "title": "Layout never makes the macro panic", "statement": "If the pieces of a macro go down the page, it is accepted or rejected with a compile error; the assertion and the subtraction in tokenize_whitespace never fail. Exception: $(...) with more than one line in $[str].", "quantifier": "For every quote tree whose pieces are in the order of lines.", "why_tests_cant": "All layouts at all nestings.", "anchors": ["genco-macros/src/encoder.rs: tokenize_whitespace", "genco-macros/src/string_parser.rs: parse"]}
{"id": "C66", "title": "Everything can be quoted", "statement": "Token trees without a dollar are accepted by the macros and quoted as they are, brackets included; with every dollar doubled any token trees are accepted and quoted as they were before the doubling.", "quantifier": "For every list of token trees at any nesting, and whatever words are keywords.", "why_tests_cant": "All token trees; tests contain a few snippets of target languages.", "anchors": ["genco-macros/src/quote.rs: parse_inner, parse_group"]}
{"id": "C67", "title": "The macro parser accepts its grammar, unambiguously and compositionally", "statement": "The input accepted is exactly the one derivable from the documented forms ($x, $(..), $[..], $$, if, for, join, match, let, ref, strings), read as the grammar says; nothing has two readings; inputs put one behind the other are read one after the other unless a dollar or a control function is cut from what follows; an arm without braces ends at the first comma outside of all groups.", "quantifier": "For every list of token trees at any nesting, and for any parsers of Rust expressions and patterns.", "why_tests_cant": "All inputs and all nestings; rejection of everything else cannot be sampled.", "anchors": ["genco-macros/src/quote.rs", "genco-macros/src/quote_in.rs", "genco-macros/src/string_parser.rs: parse"]}
{"id": "C68", "title": "Text is rendered by what it reads, whatever its type", "statement": "Strings of every accepted type, Cow, Rc, Arguments, Display values, static literals, ItemStr, integers and present options of these render exactly like the plain string they read; integers read as their sign and decimal digits, so different numbers render differently; every value appended amounts to a fixed list of calls.", "quantifier": "For every value, text, integer, surrounding stream, language and configuration.", "why_tests_cant": "All values in all contexts; a test shows one context per type.", "anchors": ["src/tokens/format_into.rs", "src/tokens/item_str.rs", "src/tokens/display.rs", "src/tokens/static_literal.rs"]}
{"id": "C69", "title": "Containers, options, quoted and register compose", "statement": "A vector, slice or Cow slice of values appends its elements in order, an absent option nothing; quoted gives one string of the language with the text as content; register of nested tuples registers each import once, in order.", "quantifier": "For every nesting of values and tuples, every stream before and after.", "why_tests_cant": "All nestings.", "anchors": ["src/tokens/format_into.rs", "src/tokens/quoted.rs", "src/tokens/register.rs", "src/macros.rs"]}
{"id": "C70", "title": "A comment adds exactly its lines", "statement": "Appended behind any text, a C#, Dart or Java comment adds exactly one line per text (mark, space, text; no trailing space for an empty text), at the current indentation, plus the opening and closing line for Java; a comment without lines adds nothing. If what follows starts a new line, it is rendered as without the comment.", "quantifier": "For every stream before and after (with strings and language items), every list of texts, every indentation.", "why_tests_cant": "All streams and levels; whitespace merging at both seams.", "anchors": ["src/lang/csharp/comment.rs", "src/lang/csharp/block_comment.rs", "src/lang/dart/doc_comment.rs", "src/lang/java/block_comment.rs"]}
{"id": "C71", "title": "A Java comment is closed only by its last line", "statement": "In a rendered Java block comment whose texts do not contain the end mark, the first end mark after the opening is the one on the last line, also for texts that end in a star or start with a slash.", "quantifier": "For every non-empty list of texts, every indentation and newline setting without a slash.", "why_tests_cant": "All texts; the pairs of characters that meet at the seams must all be considered.", "anchors": ["src/lang/java/block_comment.rs"]}
{"id": "C72", "title": "Methods of imports compose by their documented precedence", "statement": "An import made by the import function of a language and any chain of its methods (with_alias, with_module_alias, qualified, direct, into_default, into_wildcard) is declared in the file header and written in the body as the chain says: which call wins is fixed (last alias, first Rust module alias, last JavaScript kind), an alias of a Rust name implies a direct import, a Python module alias implies qualification.", "quantifier": "For every chain of calls of any length, every module and name, every configuration, all ten languages.", "why_tests_cant": "Chains of any length and order; tests use chains of one or two calls.", "anchors": ["src/lang/rust.rs 263-389", "src/lang/js.rs", "src/lang/python.rs", "src/lang/csharp/mod.rs", "src/lang/dart/mod.rs", "src/lang/nix.rs"]}
{"id": "C73", "title": "The text of the macro invocations in the languages means the calls of the model", "statement": "Each of the 35 invocations of quote! and quote_in! in src/lang, taken as source text and lexed, parsed, encoded and run, adds exactly the items that the rest of the model uses for it: the lines of the headers, the parts of imports, the C# namespace block. On compilers without line information the C# block is put on one line.", "quantifier": "For every stream before, every value of the variables and expressions in the text, every language item type.", "why_tests_cant": "All values of the interpolated expressions; and the model of the headers is tied to the source text instead of a hand expansion.", "anchors": ["src/lang/*.rs", "genco-macros/src/fake.rs", "genco-macros/build.rs"]}
{"id": "C74", "title": "Plain source text is rendered as it is written", "statement": "Text given to quote! that has no dollar and no quotes is rendered as its own lines: every line without the spaces around it and with single spaces in it, at the level the off-side rule gives its column, and one empty line for any number of blank lines between. A nightly compiler rejects exactly the text whose brackets do not match or whose columns break the off-side rule. Comments to the end of a line count as spaces, in all macro input. A compiler without line information puts the text on one line.", "quantifier": "For every text of any number of lines over names, digits, punctuation and brackets, every column the text starts at, every configuration and language.", "why_tests_cant": "All texts, all combinations of columns, brackets and blank lines; it composes lexer, parser, encoder, token stream and formatter.", "anchors": ["genco-macros/src/quote.rs", "genco-macros/src/encoder.rs", "genco-macros/src/static_buffer.rs", "src/tokens/tokens.rs", "src/fmt/formatter.rs"]}
{"id": "C75", "title": "Rendered text is a fixed point of quote!", "statement": "What quote! renders for plain text is plain text again that obeys the off-side rule. Put back into the macro it is rendered unchanged, and with any other indentation and newline it is rendered as the text it came from. So re-rendering with another configuration loses nothing but the spacing that was normalised the first time.", "quantifier": "For every text of C74, every positive number of spaces as indentation, every second configuration, every language.", "why_tests_cant": "All texts and all pairs of configurations; a sample cannot show that no information on levels, words or blank lines is lost.", "anchors": ["genco-macros/src/encoder.rs", "genco-macros/src/quote.rs", "src/fmt/formatter.rs", "src/fmt/config.rs"]}
{"id": "C76", "title": "Interpolation is substitution of blocks of lines", "statement": "A quote! with constant text and interpolated values, conditions or joined loops is rendered as its own lines with every interpolation replaced by the lines it has when rendered alone. The first line continues the text before it, the text after it continues the last line, and all lines are moved in to the level of the line of the template. What comes out can be interpolated again, directly or collected into a stream first. How constant text is cut into literals does not matter.", "quantifier": "For every number of lines and interpolations, every column layout that keeps to the off-side rule, every group structure, every value that starts and ends with visible text and ends on the level it starts on, every configuration, every language.", "why_tests_cant": "All templates and all values, nested to any depth; the claim composes the encoder, the merging of whitespace in the stream, strings with evaluations and the line writer.", "anchors": ["genco-macros/src/quote.rs", "genco-macros/src/encoder.rs", "src/tokens/tokens.rs", "src/tokens/format_into.rs", "src/fmt/formatter.rs"]}
{"id": "C77", "title": "Interpolations that write nothing can be deleted from the template", "statement": "Interpolations that write nothing (a value without text, a condition that does not hold, a loop over nothing, a match without an arm taken) can be deleted from a quote! without changing what is rendered: inside a line the spaces around them become one gap, and a line with nothing else goes away with its line break. A line that goes must be at the column of the line above or of the next line left, and no line left may start with such an interpolation. Otherwise lines are joined or a space is left at the start of a line.", "quantifier": "For every number of lines, interpolations and deleted lines, every column layout that keeps to the off-side rule, every value that makes a block, every configuration, every language.", "why_tests_cant": "All templates with any mix of interpolations that do and do not write; which of them write is known only at run time, so tests see one mix each.", "anchors": ["genco-macros/src/quote.rs", "genco-macros/src/encoder.rs", "src/tokens/tokens.rs", "src/fmt/formatter.rs"]}
{"id": "C78", "title": "Source text with $name is its own text with the names replaced by their values", "statement": "The text given to quote! with $name and $$ in it, from characters to lines: it is rendered as the lines its own text would be rendered as, with every $name replaced by the lines its value has when rendered alone and every $$ by a dollar. The lines of a value start where the name is, the text behind the name goes on where they end, and all of them are indented like the line with the name. If the last line is on the level of the first, the whole makes a value of the same kind. A compiler without line information does the same with the text on one line.", "quantifier": "For every text of any number of lines over names, digits, punctuation, brackets and interpolations, every column the text starts at, every value that starts and ends with visible text and ends on the level it starts on, every configuration, every language.", "why_tests_cant": "All texts and all values; it composes lexer, parser, encoder, token stream and formatter, and the result is stated on characters only.", "anchors": ["genco-macros/src/quote.rs", "genco-macros/src/encoder.rs", "genco-macros/src/ast.rs", "src/tokens/tokens.rs", "src/tokens/format_into.rs", "src/fmt/formatter.rs"]}
{"id": "C79", "title": "The parser of the macros ends on every input, and refuses exactly what is not in the grammar", "statement": "The parser of quote!, quote_in! and $[str] ends on every sequence of tokens, however wrong and however deeply nested: no loop of it goes on without taking a token, and it calls itself at most about twice as deep as there are tokens. It gives the nodes the grammar of templates says, and an error exactly if the tokens are not in the grammar.", "quantifier": "For every sequence of token trees of any length and depth, and all parsers for expressions and patterns which do not put tokens back; for the text of an invocation, of any length.", "why_tests_cant": "A loop that takes no token hangs the compiler only for the inputs which reach it; all inputs, also the wrong ones, have to be ruled out.", "anchors": ["genco-macros/src/quote.rs", "genco-macros/src/string_parser.rs", "genco-macros/src/quote_in.rs"]}
{"id": "C80", "title": "From the text of a macro to the text of a file", "statement": "The text given to quote! with $name in it, written to a file: the file is the header of the language with exactly the imports of the values of the names in the text, a blank line, the lines of the text with the names replaced by their values as in C78, and a newline at the end. References in the text mean what their imports ask for, as in the claims on the languages. In general, what a quote! with any nodes imports is what its parts import, in the order in which they are written; loops import what their rounds import, and conditions and matches what the branch taken imports.", "quantifier": "For every text of C78, every value that is a block of code with any imports in it, every configuration, each of the ten languages; for the imports, every sequence of nodes of any depth and every run.", "why_tests_cant": "All texts and all values together with all combinations of imports; it composes the macro, the token stream with its chain of imports, the header of each language and the formatter.", "anchors": ["genco-macros/src/quote.rs", "genco-macros/src/encoder.rs", "src/tokens/tokens.rs", "src/lang/rust.rs", "src/lang/java/mod.rs", "src/lang/csharp/mod.rs", "src/lang/js.rs", "src/lang/python.rs", "src/lang/nix.rs", "src/fmt/formatter.rs"]}
{"id": "C81", "title": "Templates of any depth in source text, from characters to files", "statement": "The text given to quote! with holes of all kinds in it: names, strings, strings with code in them, characters, expressions, literals, scopes, conditions with and without else, loops with and without a separator, and matches. The texts in the holes may have lines and holes of their own, to any depth. The whole is rendered as the lines of the text in which every hole is replaced by the lines it stands for: a condition by those of the branch taken, a loop by those of its rounds with the separator between them, a match by those of the first arm that is taken (arms with and without a condition, in braces or on the line). A $[str] is replaced by the quotation marks of the language and, between them, its text with the spaces kept and escaped as the language does, and its code with the marks of an evaluation around it. A variable given by $(let) has its value in the holes behind it, up to the end of the text it is in. A hole that writes nothing (a condition that does not hold, a loop without a round, a match without an arm taken, a $(let), a value that is empty) leaves nothing behind, and if there is nothing else on its line, the line is left out. Texts in a hole keep to their own off-side rule, and are indented like the line with the hole. The whole imports what its holes import, in order, and a file made of it has exactly the header for these imports. The meaning does not depend on how the text is divided into characters and holes. On a compiler that does not tell line numbers, the same holds with all lines of a text taken as one line with single spaces.", "quantifier": "For every text of any number of lines, every nesting of holes to any depth, every column the text starts at, every number of rounds and arms, every value that makes a block, every configuration, each of the ten languages, compilers with and without line numbers; expressions and patterns as far as the model of syn goes.", "why_tests_cant": "All templates of all depths; it composes lexer, parser, encoder, generated code, token stream, header and formatter, and the result is stated on characters only.", "anchors": ["genco-macros/src/quote.rs", "genco-macros/src/encoder.rs", "genco-macros/src/ast.rs", "genco-macros/src/string_parser.rs", "src/tokens/tokens.rs", "src/tokens/format_into.rs", "src/fmt/formatter.rs"]}
{"id": "C82", "title": "When a stream is empty", "statement": "Tokens::is_empty answers true exactly if nothing but whitespace and indentation was handed over, the indentation adds up to nothing, and no other whitespace was asked for after the last indentation.", "quantifier": "For every sequence of calls of any length.", "why_tests_cant": "The answer depends on cancellations that can be arbitrarily far apart in the history.", "anchors": ["src/tokens/tokens.rs"]}
{"id": "C83", "title": "Several files written one behind the other", "statement": "Tokens::format_file can be called for one file after the other with the same formatter: the result is that of the files one behind the other, as if a new formatter had been made for each. For a text, files one behind the other are their texts; for a vector of lines, the first line of a file is added to the last line of the one before, since a vector has no trailing line.", "quantifier": "For every number of files with any number of streams each, every configuration, every writer including those that fail, every language.", "why_tests_cant": "What a formatter keeps from one file to the next (whitespace asked for, level) shows only in combinations of two files or more.", "anchors": ["src/tokens/tokens.rs", "src/fmt/formatter.rs", "src/fmt/fmt_writer.rs", "src/fmt/io_writer.rs", "src/fmt/vec_writer.rs"]}
{"id": "C84", "title": "JavaScript: import specifiers lead to the imported module", "statement": "If the file that is generated is stored at the configured module path, the specifier rendered for a module given by its path leads to that module: followed from the directory of the file, as JavaScript does it, it ends at the path of the module. Without a module path the specifier is the path of the module.", "quantifier": "For every module path, every path of a module (with any number of `.`, `..` and empty segments), every stream and every formatting configuration.", "why_tests_cant": "Paths differ in how far they run together, and in the steps up; the unit tests look at one pair.", "anchors": ["src/lang/js.rs:196-247", "src/lang/js.rs:508-516"]}
{"id": "C85", "title": "The layout of the source changes only whitespace of the output", "statement": "If the text of a quote! is laid out in another way (other indentation, other line breaks, other spaces between its tokens, other comments' lines) or compiled by a compiler that does not tell line numbers, then the stream says the same, letter by letter, except for whitespace between texts, inserts the same values in the same order, and the rendered output differs only in whitespace. Spaces in $[str] are text and have to stay. The text has the same tokens wherever it is, and the parser accepts it in all layouts or in none.", "quantifier": "For every source text and every text with other whitespace between its tokens, every pair of compilers and places, every host program, every language and configuration; for the parser, every parser for expressions and patterns that does not look at places.", "why_tests_cant": "All layouts of all macros: it needs that no decision of lexer, parser and encoder other than whitespace depends on places.", "anchors": ["genco-macros/src/encoder.rs", "genco-macros/src/quote.rs", "genco-macros/src/string_parser.rs", "genco-macros/src/fake.rs", "genco-macros/build.rs"]}
{"id": "C86", "title": "Indentation counters in release builds", "statement": "Counters of indentation are 16-bit numbers. Without overflow checks they wrap around. Where a build with checks would not panic the other gives the same. Whatever wraps around, the stream is in normal form, has all items that are not whitespace and all imports in order, and no text is lost from the output of a stream without quoting. The amounts of indentation differ by multiples of 65536, and the output is the expected one as long as the level stays within 16 bits, even if a counter wraps around on the way. Full statement, false beyond that range: the output is as with unbounded counters.", "quantifier": "For every sequence of calls of any length with 16-bit amounts of indentation, every language, writer and configuration (text: streams without quoting).", "why_tests_cant": "An overflow needs more than 32767 steps of indentation; unit tests run with overflow checks on.", "anchors": ["src/tokens/tokens.rs:645-662", "src/fmt/formatter.rs:137-140", "src/fmt/formatter.rs:160-241"]}
{"id": "C87", "title": "Control functions ask for exactly their whitespace", "statement": "Between two texts with $[' '], $['\\r'] and $['\\n'] between them is the whitespace that the layout of the source and these control functions ask for, and nothing else. On one line: two texts are on different lines exactly if there is $['\\r'] or $['\\n'] between them, with one empty line exactly if there is $['\\n'], however many there are; there is a space in front of a text exactly if there are spaces in front of it in the source or $[' '] is the last piece in front of it. On a line of its own between lines of the same column, $['\\n'] makes one empty line and the others add nothing. Control functions are laid out like tokens: they are accepted exactly where tokens are. What is asked for in front of a line of another level is lost.", "quantifier": "For every number of texts, one-text values and control functions, in all places the macro accepts, every language and configuration.", "why_tests_cant": "The result depends on spaces, line breaks and levels on both sides of a control function; tests use a few of them one by one.", "anchors": ["genco-macros/src/encoder.rs:181-200", "genco-macros/src/encoder.rs:376-445", "genco-macros/src/quote.rs:375-400", "src/tokens/tokens.rs:309-450"]}
{"id": "C88", "title": "Registrations part the whitespace around them, and nothing else", "statement": "Calls that write nothing between two texts (registering an import, appending an empty text) part the whitespace calls around them. The text between the two texts depends only on the parts: the line breaks are the most any part asks for, the level is the sum of all indentations, and every part that ends in a space asks for a space of its own, except that those in front of the last part with the most line breaks are lost. On one line there is thus one space for every run of space calls.", "quantifier": "For every number of silent calls, every list of whitespace calls between them, every language and configuration, at any level.", "why_tests_cant": "The documentation says spaces are collapsed; tests register imports only at the start of a line, where the parts cannot be told apart.", "anchors": ["src/tokens/tokens.rs:309-450", "src/fmt/formatter.rs:105-160", "src/tokens/register.rs:1-137"]}
{"id": "C89", "title": "quote!, quote_in! and quote_fn! mean the same, for the same languages", "statement": "The three macros accept the same bodies for the same reasons, and what quote_fn! gives does to a stream what quote_in! does. Appending the stream of quote! to any stream gives the very stream that quote_in! gives, if the body starts with something other than whitespace. A body compiles for a language exactly if its layout is accepted and no string in it, at any depth, is interpolated unless the language is Dart or JavaScript; and what the other languages accept never reaches their interpolation hooks, so that the output does not depend on them.", "quantifier": "For every body, every stream appended to, every meaning of the Rust code in it, every language and configuration.", "why_tests_cant": "The check is made by a call that does nothing at run time; tests that compile cannot show what is refused, nor that the hooks are never reached.", "anchors": ["genco-macros/src/lib.rs:48-89", "genco-macros/src/quote_in.rs:12-42", "genco-macros/src/quote_fn.rs:12-33", "genco-macros/src/requirements.rs:1-27", "src/tokens/from_fn.rs:25-53", "src/tokens/tokens.rs:674-682"]}
{"id": "C90", "title": "Every string of a stream is one string literal of the output", "statement": "In the text of a stream or file made of code and quoted strings, a reader that does nothing but look for quotes, take what stands up to the next quote not behind a backslash on the same line for a string literal, and go on behind it, finds exactly the strings of the stream, in order: no string ends early or swallows code or another string, and nothing else is taken for a string. Each literal is the text the string would have alone, so that it is read back as C26 to C35 say; in Rust and Swift as exactly the content of the string.", "quantifier": "For every stream of code without quotes of its own and strings of literals, with any registrations, whitespace and indentation, every file of several such streams, each of the ten languages and every configuration whose line ending has no quote.", "why_tests_cant": "Tests look at single strings of a few characters; whether a string ends where it should depends on every character in it, and what is found afterwards depends on every string before.", "anchors": ["src/fmt/formatter.rs:143-272", "src/lang/mod.rs:64-124", "src/lang/rust.rs:53-104", "src/lang/swift.rs:27-68", "src/lang/js.rs:67-172", "src/lang/dart/mod.rs:57-144", "src/lang/java/mod.rs:34-85"]}
{"id": "C91", "title": "Helpers may return streams or write in place", "statement": "Code generators are written with helper functions: some return a stream that is appended, some write to the stream they are given. A program makes the very same stream either way, with helpers of any depth, if at each use of a helper there is whitespace at most on one side: before the use or at the start of what the helper makes. Where streams are joined does not matter: appending is associative if the stream in the middle has anything but whitespace; with a stream of mere whitespace in the middle it is not.", "quantifier": "For every program of calls and helpers of any length and depth, every item type; for associativity, every three histories of calls.", "why_tests_cant": "Tests compare single streams; the law is about all ways to divide a program into helpers.", "anchors": ["src/tokens/format_into.rs:54-85", "src/tokens/tokens.rs:201-212", "src/tokens/tokens.rs:309-405", "src/tokens/tokens.rs:645-662"]}
{"id": "C92", "title": "Evaluations in strings are read as evaluations", "statement": "In JavaScript and Dart a string may contain evaluations of code, which may contain strings, and so on to any depth. The compiler of the generated source, reading the rendered text from its start, finds exactly the code, the strings, the values of their texts and the evaluations that the stream has. In Dart an evaluation of one literal is written as $literal, so it is read as meant exactly if the literal is a name and the text behind it does not begin with a letter, a digit or an underscore: $(name)s is read as the evaluation of names, and $(a.b) as that of a.", "quantifier": "For every stream of code, whitespace and strings with evaluations nested to any depth, every file of such streams, every configuration whose line break is whitespace, every item type; for the exact condition, every literal and every text.", "why_tests_cant": "Tests render single strings and compare the text; whether any nesting of strings and evaluations is read back is a statement about all streams, and about a reader the tests do not have.", "anchors": ["src/lang/js.rs:67-130", "src/lang/dart/mod.rs:57-144", "src/fmt/formatter.rs:150-250", "src/lib.rs:391-446"]}
{"id": "C93", "title": "Widths are counted in a usize", "statement": "The formatter counts the spaces it owes, and the width of the indentation, in a usize. This arithmetic is exact for every stream if the number of items and the width of all its indentation taken together can be counted. For streams without strings it overflows exactly if some line starts behind more spaces than a usize can count: a debug build then panics, a release build starts that line, and no other, behind the number of spaces that is left modulo the size of usize.", "quantifier": "For every stream (exactness: of texts, items of a language, registrations and whitespace), every language, writer and configuration, and every size of usize.", "why_tests_cant": "The sizes at which counters overflow cannot be built in a test: a line of 2^64 spaces does not fit in memory.", "anchors": ["src/fmt/formatter.rs:56-63", "src/fmt/formatter.rs:132-134", "src/fmt/formatter.rs:272-307", "src/fmt/config.rs:33-39"]}
{"id": "C94", "title": "A joined loop with a refutable pattern", "statement": "A loop with join writes the elements its pattern takes, with the separator exactly between them. False of the code: the code generated for join is `while let Some(pattern) = it.next()`, so any pattern compiles, the loop ends at the first element the pattern does not take, the elements behind it are left out silently, and the separator is still written in front of it.", "quantifier": "For every joined loop the macros accept, every body and separator, and every sequence of elements, each taken or not taken by the pattern.", "why_tests_cant": "Tests use patterns that take every element; the separator left over shows only if an element not taken follows one that is.", "anchors": ["genco-macros/src/encoder.rs:237-268", "genco-macros/src/quote.rs:138-185"]}
{"id": "C95", "title": "Texts are sorted by their bytes", "statement": "Sorting and comparing texts by characters, as the claims on imports do, is sorting and comparing them by their UTF-8 bytes, as Rust does: the two comparisons agree on all texts, bytes determine the text, and sets and maps keyed by texts are the same for both orders.", "quantifier": "For all texts, sets of texts and maps keyed by texts.", "why_tests_cant": "The order of imports outside ASCII is not tested; orders by UTF-16 units, which other tools use, differ from it.", "anchors": ["src/tokens/item_str.rs:15", "src/lang/rust.rs:418", "src/lang/rust.rs:518-520", "src/lang/python.rs:292-293"]}
{"id": "C96", "title": "Nix: what the names of a file mean", "statement": "In a Nix file a rendered name means what its import asks for exactly if the name is not taken: a name bound by the let (inherits and variables) if nothing else of that name is bound; an argument if the let does not bind it; a name of a scope if it is inherited from the same path and nothing else of that name is bound, or if neither the let, nor an argument, nor the surroundings have it and of the scopes that have it the innermost is that path. Names paths start with mean what is given from outside, in scopes always, in inherits unless the let binds them.", "quantifier": "For every multiset of imports with any values of variables that are expressions, every set of names known outside of the file, every assignment of attributes to paths, scoped or not; a scoped file is put where its arguments and the first names of its paths are known.", "why_tests_cant": "The header puts arguments, scopes and bindings from independent imports side by side; which of them take each other's names depends on the precedence of Nix scopes, on all pairs of imports, and on the sorted order of the scopes.", "anchors": ["src/lang/nix.rs:47-80", "src/lang/nix.rs:121-266"]}
{"id": "C97", "title": "Go and Dart: what references mean", "statement": "In a Go file a reference means the name of the package its import asks for exactly if the package declares the last segment of its path as its name and no other imported path leads to a package declaring the same name. In a Dart file a reference means the name of the library its import asks for exactly if the library has the name, the alias is not one of dart:core, no other library visible under the same prefix has the name (system libraries give way to others), and an unprefixed name is not used as a prefix.", "quantifier": "For every multiset of imports, every assignment of names to packages, every assignment of exported names to libraries; Dart for names and aliases without dots.", "why_tests_cant": "Whether a reference is right depends on all other imports of the file and on what the packages declare.", "anchors": ["src/lang/go.rs:80-103", "src/lang/go.rs:136-154", "src/lang/dart/mod.rs:147-158", "src/lang/dart/mod.rs:190-235"]}
{"id": "C98", "title": "Imports made from texts are sorted by text and declared once", "statement": "If the modules, names and aliases of all imports are given as texts (&str, String, &String, Box<str>, Cow<str>, Rc<String>, not as ItemStr), they are stored alike, so the header depends on the texts only: Go, C, Swift and Dart declare each path (with kind or alias) once; Rust has one use declaration for each module that needs one, with self, renamed self and items each once; Python has one from statement per module and each import once; JavaScript has each wildcard import once and one declaration per other module, with the first default name and each other name once; Java imports of the foreign classes of one name the one whose package comes first; Nix has each argument, scope, inherited name and variable with its value once. Everything is sorted by text.", "quantifier": "For every multiset of imports made from texts of any of these types by any sequence of builder calls, in every order, every configuration, every body.", "why_tests_cant": "Whether two imports are merged depends on how their texts are stored, which is the result of the conversions at every call; tests use one type of text throughout.", "anchors": ["src/tokens/item_str.rs:62-120", "src/lang/rust.rs:412-597", "src/lang/python.rs:291-350", "src/lang/js.rs:416-517", "src/lang/go.rs:136-153", "src/lang/java/mod.rs:173-211", "src/lang/nix.rs:201-246"]}
{"id": "C99", "title": "Attributes of match arms", "statement": "An attribute written before an arm of $(match e { ... }) is an attribute of that arm and of no other, as in Rust; attributes anywhere else are refused. Arms without attributes are always there.", "quantifier": "For every expression, every list of arms with blocks of any kind and guards, every list of attributes, every choice of which attributes are active.", "why_tests_cant": "Which arms are compiled depends on the configuration of the compiler; the tests of the repository have no attribute in a match.", "anchors": ["genco-macros/src/quote.rs:188-245", "genco-macros/src/encoder.rs:285-308", "genco-macros/src/ast.rs:8-14"]}
{"id": "C100", "title": "Swift and C: what names mean", "statement": "In a Swift file a reference means the declaration its import asks for exactly if the module has the name and no other module imported in the file has it, except the standard library if the import does not ask for that. In a C file it does so exactly if the header declares the name and no other header included in the file does.", "quantifier": "For every multiset of imports in every order, every choice of what modules and headers declare, every configuration, every body.", "why_tests_cant": "Whether a name is right depends on all other imports of the file and on what the modules declare.", "anchors": ["src/lang/swift.rs:71-113", "src/lang/c.rs:42-92"]}
{"id": "C101", "title": "Layout errors name the right fix", "statement": "If a quoted macro of tokens is refused for its indentation, the error is about the first token that cannot stay where it is, everything before it being accepted, and it names a column at which a line beginning there would be accepted, whatever the line holds. Looking from the token in the direction asked for, it is the first such column. The message says in decimal how many spaces more or less lead from the column of the token to that column, and can be read in one way only. Tokens in the order of the text are refused with no other error. Whoever moves the first refused line as the message asks, again and again, has an accepted macro after fewer changes than there are lines. For plain text the spaces in question are those in front of the first line that is refused: with as many more or less as the message says the text is accepted up to and with that line.", "quantifier": "For every list of tokens with any positions and texts, every line put in place of the one refused; for every plain text with matching brackets that starts at any column.", "why_tests_cant": "The column named depends on all lines before; the tests of the repository check a few messages for fixed texts at most.", "anchors": ["genco-macros/src/encoder.rs:381-478"]}
{"id": "C102", "title": "Literals show text as it is and have bounded size", "statement": "Between its delimiters a string literal is the text itself exactly if all characters of the text stand for themselves in the language: printable ASCII but quotes and backslash in Python, C, C#, Go, Nix and Java; everything but control characters, double quote and backslash in Rust and JavaScript, also without the apostrophe in Swift, also without the dollar sign in Dart. These are left alone wherever they stand. Every other character becomes at least two and at most k characters, where k is 8 for Rust, 4 for JavaScript and Dart, 6 for Swift, 12 for Java and 10 for the others; so a literal of n characters has between n + 2 and k n + 2 characters, and for every n there is one with k n + 2.", "quantifier": "For all texts of any length with any characters, all ten languages, both kinds of delimiters, every configuration.", "why_tests_cant": "There are more than a million characters, and the longest escapes are those of characters that tests rarely use.", "anchors": ["src/lang/mod.rs:182-220", "src/lang/rust.rs:60-89", "src/lang/js.rs:124-158", "src/lang/swift.rs:34-54", "src/lang/java/mod.rs:41-65", "src/lang/dart/mod.rs:94-130"]}
{"id": "C103", "title": "Errors of any macro are errors of one of its blocks", "statement": "A macro of any kind, with groups, strings, loops, separators, conditions, matches and scopes at any depth, is accepted exactly if every block in it passes two checks: plain tokens at the places of its pieces would be accepted, and every string with parts is on one line. A group counts as its two delimiters with its content between them, any other construct as one piece; the insides of parentheses around a separator, an arm or an interpolation count as pieces as well. If a macro is refused, its error is the one such tokens make for one of the blocks, or is about a string with parts that is not on one line. So an error about indentation is about the first piece of a block that cannot stay, names a column at which it can begin, and has a message that leads there.", "quantifier": "For every macro with nodes nested to any depth at any positions, with or without a span around it.", "why_tests_cant": "Blocks nest without bound and errors of inner blocks compete with those of outer ones; tests check single constructs.", "anchors": ["genco-macros/src/quote.rs:80-491", "genco-macros/src/encoder.rs:60-143", "genco-macros/src/encoder.rs:318-478", "genco-macros/src/string_parser.rs:187-309"]}
{"id": "C104", "title": "Any configuration can be had from the default text", "statement": "fmt::Config::from_lang is four spaces and LF; with_indentation and with_newline change exactly their field, the last of each counts and their order does not matter. The output in any configuration is the output of to_string, to_vec, to_file_string and to_file_vec, which use the default, with the leading indentation of each line and the newlines replaced in the finished text: nothing in the middle of a line depends on the configuration.", "quantifier": "All token streams, all lists of streams forming a file, all languages, all configurations to convert from and to (any number of spaces, tabs, any newline); for lines whose own text does not begin with a full level and has no line break, and streams that break no line in a string opened directly in a string (the claim is false otherwise; witnesses).", "why_tests_cant": "Tests render a few streams in one or two configurations; here the texts in all configurations are related for all streams.", "anchors": ["src/fmt/config.rs:49-75", "src/lang/mod.rs:62-65", "src/tokens/tokens.rs:716-864", "src/fmt/formatter.rs:274-307"]}
{"id": "C105", "title": "What references mean in text rendered on its own", "statement": "to_string, to_vec and format write a stream without its imports. In Java every class is then written in full, so the text means the same in any file, but for classes of java.lang, whose simple name must not be taken there; if all classes are of java.lang the file and the text on its own are the same. In C# every type is written bare unless it is asked for with its namespace, so the text means what is asked for exactly in files where the bare names do. Settings of the languages: the default mode of Rust imports acts like asking every import for it; packages, namespaces and the head of Nix files appear exactly as configured, as set last.", "quantifier": "All imports, all files around the text (any package or namespace, any imports, any classes or types there are), all histories of calls; for C# the full claim is false (two types of one name; proved for all such types).", "why_tests_cant": "Tests check files; what a text means elsewhere depends on unboundedly many other classes and imports.", "anchors": ["src/tokens/tokens.rs:545-552", "src/tokens/tokens.rs:751-864", "src/lang/java/mod.rs:86-119", "src/lang/csharp/mod.rs:79-144", "src/lang/rust.rs:143-167", "src/lang/go.rs:117-133", "src/lang/nix.rs:104-118"]}
{"id": "C106", "title": "Adding code to a Java or C# file", "statement": "Code is appended to a file. In C# a reference that was there already is written differently in the new file if and only if it was written bare because its namespace was the first to ask for that name, and a type of that name is added whose namespace is not the file's own and sorts before it. In Java the same holds of packages when equal classes are stored alike, in particular when all classes are given as texts (then only texts count). If no such type or class is added, every using and every import of the old file is also in the new one, and the lines of the old body are the first lines of the new body, the last of them possibly continued. If equal classes are stored differently the Java claim fails: adding the same class again can give it back its name.", "quantifier": "All histories of calls before and after, all imports, packages and namespaces; the Java claim under the condition that equal classes are stored alike (shown to be needed).", "why_tests_cant": "Whether a reference is stable depends on the order of all names in an unbounded file; tests have files that are not extended.", "anchors": ["src/lang/java/mod.rs:86-119", "src/lang/java/mod.rs:128-215", "src/lang/csharp/mod.rs:79-144", "src/lang/csharp/mod.rs:150-225"]}
{"id": "C107", "title": "What is written stays written", "statement": "Appending calls to a stream only adds text behind what the stream was rendered to before: whatever is called (spacing, indentation, texts, imports, strings, whole streams), if formatting succeeds the old text is a prefix of the new text, and the old lines are the first lines of the new lines, the last one possibly continued. This holds wherever the stream ends, also inside a string, except inside an evaluation in a string (whose short form is only known in its end) and inside a string quoted in a string (which is written as a whole); both exceptions are shown to be needed.", "quantifier": "All languages (any item renderer), all configurations, all histories of calls before and after, whose open strings are not evaluations or strings quoted in strings.", "why_tests_cant": "Later calls do change the items at the end of the stream (pushes, spaces and indentation are merged or removed); that this never reaches the text is a claim about all pairs of histories.", "anchors": ["src/tokens/tokens.rs:309-405", "src/tokens/tokens.rs:572-662", "src/fmt/formatter.rs:160-241", "src/fmt/formatter.rs:244-300", "src/fmt/vec_writer.rs:61-91"]}
{"id": "C108", "title": "Adding code to files of the other languages", "statement": "Code is appended to a file. In Go, C, Swift, Dart and Nix every import, include or declaration of the old file is also in the new one, in the same order. In JavaScript every name bound by the imports of the old file is bound to the same thing by those of the new one: of several names given to a default export the first counts. In Rust and Python a reference of the old file resolves in the new one if and only if it did in the old one and no import that is added (and needs a declaration) claims the same name for something else. With C107 the body of the old file stays as it is.", "quantifier": "All histories of calls before and after, all configurations, all imports; proper names for Rust and Python, laid out values for Nix, no body whose leading space is lost.", "why_tests_cant": "A claim about all pairs of a file and an extension of it.", "anchors": ["src/lang/go.rs:72-160", "src/lang/c.rs:26-100", "src/lang/swift.rs:56-125", "src/lang/dart/mod.rs:132-225", "src/lang/nix.rs:27-300", "src/lang/js.rs:160-195", "src/lang/js.rs:416-515", "src/lang/rust.rs:91-125", "src/lang/rust.rs:412-560", "src/lang/python.rs:45-95", "src/lang/python.rs:291-360"]}
{"id": "C109", "title": "The Rust code of a template is in the generated code once, where it was", "statement": "With the calls for constant text and whitespace taken out, the statements a quoting macro generates are the Rust code of its template: every interpolated expression, pattern, iterator, condition, guard, match value and scope is there exactly once, in the order and at the depth of the template, and there is no other code. The tokens of that code are tokens of the input with their places, in the order of the input, none of them twice.", "quantifier": "For every accepted template of any kind and depth (groups, strings, loops with separators, conditions, matches, lets, scopes), every span, and every input a parser of expressions that cuts its input reads as the template.", "why_tests_cant": "Tests see the text that comes out of a few templates. An expression evaluated twice, or moved out of its branch, shows only if evaluating it has an effect.", "anchors": ["genco-macros/src/encoder.rs:60-316", "genco-macros/src/quote.rs:80-491", "genco-macros/src/string_parser.rs:133-309"]}
{"id": "C110", "title": "No token of a template is ignored", "statement": "Every token of an accepted macro input is used, in the order of the input: as constant text (a string literal by its value), or as a token of Rust code; all others are the words, signs and delimiters of the macro itself. The generated code has exactly that text, but for whitespace, and that code, in that order; only scopes that cannot name the stream (ref _) may be written in front of the text before them.", "quantifier": "For every input the parser accepts, with every parser of expressions that cuts its input and every Display of token trees that shows their tokens, and every span.", "why_tests_cant": "Tests compare the output of some templates. A token that is dropped or moved in one position of one construct shows only in a test with that construct.", "anchors": ["genco-macros/src/quote.rs:80-537", "genco-macros/src/string_parser.rs:149-309", "genco-macros/src/encoder.rs:60-316"]}
{"id": "C111", "title": "Code on lines of its own is laid out on its own", "statement": "Behind a piece of code that ends with text outside of all strings, whitespace with at least one line break, without a space in its end, that leads back to the outermost level of indentation lets the code behind it have the lines that it has when it is rendered on its own: the lines of both together are the lines of the first, an empty line if one is asked for, and the lines of the second. At an inner level every line of the second that is not empty is further in by that level, if the second does not go further out than it begins. So any number of pieces can be rendered together or one by one, and a program of blocks within blocks has the lines of its parts, those of a block one level further in than the lines around it.", "quantifier": "For all pieces of code built with any calls, with strings, evaluations, imports and indentation in them, where the later ones begin with text; all whitespace calls between them; all languages and configurations, to a text or to lines.", "why_tests_cant": "Tests render a few streams as a whole. State that is left behind by a piece of code, such as pending whitespace, a level of indentation or an open string, shows only in code behind it, and tests of that code on its own do not have it.", "anchors": ["src/fmt/formatter.rs:100-308", "src/fmt/vec_writer.rs:30-91", "src/tokens/tokens.rs:309-405", "src/tokens/tokens.rs:645-662"]}
{"id": "C112", "title": "Files of programs", "statement": "The file of a program of nested blocks, made of parts that begin and end with text and end on the level of indentation they begin on, is the declarations for the imports of all its parts, an empty line if there are any, and the lines of its parts in order, those of a block one level further in than the lines around it. With a C# namespace all of them are one level further in, in its braces. The text of a program are its lines with the newline of the configuration between them.", "quantifier": "For all programs of any depth, with parts built by any calls, for Rust, Java, C#, Go, Python, JavaScript, Dart, Swift, C and Nix; all packages, namespaces and configurations.", "why_tests_cant": "Tests compare whole files for a few programs. That the header is made of the imports of every block, however deep, and that no block changes the lines of another, concerns all trees of blocks.", "anchors": ["src/fmt/formatter.rs:100-308", "src/fmt/vec_writer.rs:30-91", "src/tokens/tokens.rs:309-405", "src/lang/java/mod.rs: Java::imports, format_file", "src/lang/csharp/mod.rs: Csharp::imports, format_file", "src/lang/rust.rs: Rust::imports, format_file", "src/lang/nix.rs: Nix::imports, format_file"]}
{"id": "C113", "title": "Rearranged programs", "statement": "Two programs of nested blocks that refer to the same imports, in whatever order and however often, have files with the same declarations above their own lines. In particular the parts of a program can be put in any order: the declarations stay as they are, and only the lines of the parts change places. For JavaScript no module may have two default imports, without which the order decides which of them is declared, and for Nix the imports have to have text.", "quantifier": "For all pairs of programs of any depth with the same set of imports, all permutations of any number of parts, for Rust, Java, C#, Go, Python, JavaScript, Dart, Swift, C and Nix; all packages, namespaces and configurations.", "why_tests_cant": "Tests generate one order of a few parts. That no order and no repetition changes a declaration concerns all permutations of all lists of parts.", "anchors": ["src/tokens/tokens.rs: walk_imports, WalkImports", "src/lang/java/mod.rs: Java::imports, format_file", "src/lang/csharp/mod.rs: Csharp::imports, format_file", "src/lang/rust.rs: Rust::imports", "src/lang/js.rs: JavaScript::imports", "src/lang/python.rs: Python::imports", "src/lang/nix.rs: Nix::imports", "src/fmt/formatter.rs:100-308"]}
{"id": "C114", "title": "Programs of source texts", "statement": "What quote! makes of plain source text, on a nightly compiler, can be put together with line breaks and with indent and unindent to programs of any depth. If the last line of each text is on the level of its first, the result is rendered as the lines of the texts, tidied up, one text behind the other, with the empty lines that are asked for, and the texts in a block one level further in than those around it. Without the condition on the last line the last line of a text and the first of a block behind it can become one.", "quantifier": "For all trees of plain texts that keep to the off-side rule and whose brackets match, wherever each of them is in the source; all languages, configurations, variables and behaviours of syn.", "why_tests_cant": "Tests put a few templates together. That the parts never influence each other's lines, from the characters of the source on, concerns all texts and all ways to nest them.", "anchors": ["genco-macros/src/encoder.rs", "genco-macros/src/quote.rs", "genco-macros/src/cursor.rs", "src/tokens/tokens.rs:309-405", "src/fmt/formatter.rs:100-308"]}
{"id": "C115", "title": "Programs of templates", "statement": "What quote! makes of templates, lines of constant text with holes for values, conditions, loops and matches in them, can be put together with line breaks and with indent and unindent to programs of any depth. If what fills the holes are blocks of code that begin and end with text, and the last line of each template is on the level of its first, then every macro is accepted, the result is rendered as the lines of the templates with the lines of the holes put in, the templates in a block one level further in, and the imports of the program are those of the holes, in order. What a template or a program makes, collected in a stream, can fill holes of other templates.", "quantifier": "For all trees of templates that keep to the off-side rule and all contents of their holes; all languages whose escapes are made per character, all configurations, variables and values.", "why_tests_cant": "Tests put a few templates together. That neither holes nor templates ever influence each other's lines, at any depth, and that no import is lost or moved, concerns all templates and all ways to nest them.", "anchors": ["genco-macros/src/encoder.rs", "genco-macros/src/quote.rs", "src/tokens/tokens.rs:309-405", "src/fmt/formatter.rs:100-308"]}
{"id": "C116", "title": "One file from many source texts with names in them", "statement": "Several quote! texts with $name in them are made to streams on a nightly compiler, and the streams are appended with line breaks, or with indent and unindent around them. If each text keeps to the off-side rule and ends on the level it begins on, and the values of the names are blocks of code that begin and end with text, then all macros are accepted, and there is one file for all of them: its lines are those of the texts with the values in the places of the names, texts in a block one level further in, under the header that the imports of all the names have in the language (Go, C, Swift, Dart, JavaScript, Python, Rust, Java, C#, Nix): each import once, and in Rust and Python every reference in every text means what its value means exactly if no two names in any of the texts claim the same word, in Java exactly if no short name is taken by another class, and in C# if no name is in two namespaces that are used.", "quantifier": "For all trees of texts, all values of names, all places of the texts in the source, all configurations.", "why_tests_cant": "Tests have one quote! with a few imports. That the header is right for all texts together while no text changes the lines of another concerns every number of macros and every nesting.", "anchors": ["genco-macros/src/encoder.rs", "genco-macros/src/quote.rs", "src/tokens/tokens.rs:98-405", "src/fmt/formatter.rs:100-308", "src/lang/rust.rs", "src/lang/go.rs", "src/lang/python.rs", "src/lang/js.rs"]}
