{
 "claims": [
  {
   "property": "C01",
   "status": "proved",
   "theorems": [
    "Genco.Props.C01_normal_form",
    "Genco.Props.C01_normal_form_complete"
   ],
   "note": "Histories of arbitrary API calls, plus completeness of the normal form."
  },
  {
   "property": "C02",
   "status": "proved",
   "theorems": [
    "Genco.Props.C02_rebuild"
   ],
   "note": ""
  },
  {
   "property": "C03",
   "status": "proved",
   "theorems": [
    "Genco.Props.C03_walk_imports"
   ],
   "note": ""
  },
  {
   "property": "C04",
   "status": "proved",
   "theorems": [
    "Genco.Props.C04_equality"
   ],
   "note": ""
  },
  {
   "property": "C05",
   "status": "proved",
   "theorems": [
    "Genco.Props.C05_content"
   ],
   "note": ""
  },
  {
   "property": "C06",
   "status": "proved",
   "theorems": [
    "Genco.Props.C06_gap",
    "Genco.Props.C06_anywhere",
    "Genco.Props.C06_exchange"
   ],
   "note": "C06_gap for streams without quotes; C06_anywhere behind any calls, in strings and in evaluations in strings, and with any calls behind."
  },
  {
   "property": "C07",
   "status": "proved",
   "theorems": [
    "Genco.Props.C07_net_indentation",
    "Genco.Props.C07_counts"
   ],
   "note": ""
  },
  {
   "property": "C08",
   "status": "proved",
   "theorems": [
    "Genco.Props.C08_no_overflow",
    "Genco.Props.C08_exact",
    "Genco.Props.C08_overflow",
    "Genco.Props.C08_underflow",
    "Genco.Props.C08_format_exact",
    "Genco.Props.C08_formatter_overflow",
    "Genco.Props.C08_any_stream"
   ],
   "note": ""
  },
  {
   "property": "C09",
   "status": "partial",
   "theorems": [
    "Genco.Props.C09_new_line_partial",
    "Genco.Props.C09_exact_partial",
    "Genco.Props.C09_cancelled_negative",
    "Genco.Props.C09_anywhere_partial"
   ],
   "note": "Proved exactly when the next text starts on a new line: the indents and unindents of the gap do not cancel out, or a push or line follows the last of them. The documented claim is false of the cancelled case; witness proved. The _anywhere theorem holds behind any calls, in strings and in evaluations in strings, and with any calls behind."
  },
  {
   "property": "C10",
   "status": "partial",
   "theorems": [
    "Genco.Props.C10_append_closed_partial",
    "Genco.Props.C10_append_open_partial",
    "Genco.Props.C10_gap",
    "Genco.Props.C10_exact_partial",
    "Genco.Props.C10_interpolate_partial",
    "Genco.Props.C10_cancelled_negative",
    "Genco.Props.C10_leading_negative",
    "Genco.Props.C10_anywhere_partial"
   ],
   "note": "C10_gap: the exact text between the streams for any whitespace calls on both sides; C10_exact_partial: exactly when appending renders like making the calls in place. Two witnesses show where the unconditional claim fails (cancelled indentation, leading whitespace). The _anywhere theorem holds behind any calls, in strings and in evaluations in strings, and with any calls behind."
  },
  {
   "property": "C11",
   "status": "proved",
   "theorems": [
    "Genco.Props.C11_string_is_joined_lines"
   ],
   "note": ""
  },
  {
   "property": "C12",
   "status": "proved",
   "theorems": [
    "Genco.Props.C12_ends_with_text",
    "Genco.Props.C12_file_trailing_newline"
   ],
   "note": "Also: what stands before the last newline is empty or ends with the text written last (C12_ends_with_text)."
  },
  {
   "property": "C13",
   "status": "proved",
   "theorems": [
    "Genco.Props.C13_layout",
    "Genco.Props.C13_layout_quotes",
    "Genco.Props.C13_indentation_width",
    "Genco.Props.C13_any_stream",
    "Genco.Props.C13_any_file",
    "Genco.Props.C13_trees"
   ],
   "note": "C13_any_stream and C13_any_file: every stream and file, with strings and evaluations left open or malformed; C13_trees: the two specifications agree on nested streams."
  },
  {
   "property": "C14",
   "status": "proved",
   "theorems": [
    "Genco.Props.C14_no_trailing_whitespace",
    "Genco.Props.C14_pending_whitespace_dropped",
    "Genco.Props.C14_file_lines",
    "Genco.Props.C14_lines_end_in_ink"
   ],
   "note": "For streams and files. C14_lines_end_in_ink: for the ten languages, if no literal and no rendered import ends with a blank, no line does."
  },
  {
   "property": "C15",
   "status": "proved",
   "theorems": [
    "Genco.Props.C15_blank_lines",
    "Genco.Props.C15_file"
   ],
   "note": "For streams and files, whatever the texts contain."
  },
  {
   "property": "C16",
   "status": "proved",
   "theorems": [
    "Genco.Props.C16_text_preserved",
    "Genco.Props.C16_text_preserved_plain",
    "Genco.Props.C16_any_stream",
    "Genco.Props.C16_any_file"
   ],
   "note": "C16_any_stream and C16_any_file: every stream and file, with strings and evaluations left open or malformed."
  },
  {
   "property": "C17",
   "status": "partial",
   "theorems": [
    "Genco.Props.C17_single_space_partial",
    "Genco.Props.C17_at_most_one",
    "Genco.Props.C17_register_negative",
    "Genco.Props.C17_anywhere"
   ],
   "note": "Holds without registrations between the calls; witness with a registration proved; with registrations the number of spaces is given exactly (C88). The _anywhere theorem holds behind any calls, in strings and in evaluations in strings, and with any calls behind."
  },
  {
   "property": "C18",
   "status": "partial",
   "theorems": [
    "Genco.Props.C18_register_invisible_partial",
    "Genco.Props.C18_short_form_negative",
    "Genco.Props.C18_any_language",
    "Genco.Props.C18_beside"
   ],
   "note": "Holds for every language whose single-literal interpolation is the default one, for any stream; and for every language, for any two streams that differ only in registrations, none of them beside an interpolated single literal. The negation is proved for a language with a short form (Dart) and a registration beside the literal."
  },
  {
   "property": "C19",
   "status": "partial",
   "theorems": [
    "Genco.Props.C19_fails_exactly",
    "Genco.Props.C19_nested_ok_partial",
    "Genco.Props.C19_triple_negative",
    "Genco.Props.C19_unclosed_negative"
   ],
   "note": "Exact recogniser for failure; properly nested streams succeed; a balanced triple quote fails and unclosed quotes succeed, so 'malformed' is the recogniser's notion."
  },
  {
   "property": "C20",
   "status": "proved",
   "theorems": [
    "Genco.Props.C20_failing_writer",
    "Genco.Props.C20_limited_bytes"
   ],
   "note": "For whole files with any writer; also in bytes for a writer of limited capacity."
  },
  {
   "property": "C21",
   "status": "proved",
   "theorems": [
    "Genco.Props.C21_pieces",
    "Genco.Props.C21_malformed",
    "Genco.Props.C21_bytes_are_utf8"
   ],
   "note": ""
  },
  {
   "property": "C22",
   "status": "partial",
   "theorems": [
    "Genco.Props.C22_nested_exact_partial",
    "Genco.Props.C22_nested_rust_partial",
    "Genco.Props.C22_nested_negative",
    "Genco.Props.C22_nested_any",
    "Genco.Props.C22_swift_partial",
    "Genco.Props.C22_python_partial",
    "Genco.Props.C22_java_partial",
    "Genco.Props.C22_js_partial",
    "Genco.Props.C22_dart_partial",
    "Genco.Props.C22_go_partial",
    "Genco.Props.C22_c_partial",
    "Genco.Props.C22_csharp_partial",
    "Genco.Props.C22_nix_partial"
   ],
   "note": "False of the code, exact in all ten languages: decoding once gives the text between raw quotes, and that is a literal for the text if and only if the text meets a condition stated per language (no quote, backslash or line break, and the characters the language escapes wrongly); witness: a text with a quote."
  },
  {
   "property": "C23",
   "status": "proved",
   "theorems": [
    "Genco.Props.C23_delimiters_match"
   ],
   "note": ""
  },
  {
   "property": "C24",
   "status": "proved",
   "theorems": [
    "Genco.Props.C24_negative_indentation",
    "Genco.Props.C24_anywhere"
   ],
   "note": "C24_anywhere also in strings and in evaluations in strings."
  },
  {
   "property": "C25",
   "status": "partial",
   "theorems": [
    "Genco.Props.C25_calm_stream_partial",
    "Genco.Props.C25_calm_file_partial",
    "Genco.Props.C25_any_stream_partial",
    "Genco.Props.C25_any_file_partial",
    "Genco.Props.C25_configuration_partial",
    "Genco.Props.C25_newline_partial",
    "Genco.Props.C25_nested_negative"
   ],
   "note": "Fails for line breaks inside a string quoted inside a string (witness). C25_calm_stream_partial, C25_calm_file_partial: for all streams and files, well-formed or not, in which no line break or indentation is asked for in a string opened directly in a string; the other theorems are special cases."
  },
  {
   "property": "C26",
   "status": "proved",
   "theorems": [
    "Genco.Props.C26_rust"
   ],
   "note": ""
  },
  {
   "property": "C27",
   "status": "proved",
   "theorems": [
    "Genco.Props.C27_swift"
   ],
   "note": ""
  },
  {
   "property": "C28",
   "status": "partial",
   "theorems": [
    "Genco.Props.C28_python_exact_partial",
    "Genco.Props.C28_python_partial"
   ],
   "note": "Exact: U+0012 is read back as U+000C, U+0011 as U+000B; the round trip holds iff neither occurs."
  },
  {
   "property": "C29",
   "status": "partial",
   "theorems": [
    "Genco.Props.C29_java_exact_partial",
    "Genco.Props.C29_java_partial",
    "Genco.Props.C29_java_negative"
   ],
   "note": "False of the code, exact: a text round trips if and only if it contains neither U+0007 (read back as U+0008) nor U+0014 (read back as U+000C)."
  },
  {
   "property": "C30",
   "status": "partial",
   "theorems": [
    "Genco.Props.C30_js_exact_partial",
    "Genco.Props.C30_js_partial",
    "Genco.Props.C30_js_negative"
   ],
   "note": "False of the code, exact: a text round trips if and only if no NUL is followed by a decimal digit and it contains neither U+0011 nor U+0012; witnesses for both failures."
  },
  {
   "property": "C31",
   "status": "partial",
   "theorems": [
    "Genco.Props.C31_dart_exact_partial",
    "Genco.Props.C31_dart_partial",
    "Genco.Props.C31_dart_negative"
   ],
   "note": "False of the code, exact: a text round trips if and only if it contains neither U+0011 nor U+0012."
  },
  {
   "property": "C32",
   "status": "partial",
   "theorems": [
    "Genco.Props.C32_go_exact_partial",
    "Genco.Props.C32_go_partial",
    "Genco.Props.C32_go_negative"
   ],
   "note": "False of the code, exact: a text round trips if and only if it contains no apostrophe (written with an escape illegal in Go strings), no U+0011 and no U+0012."
  },
  {
   "property": "C33",
   "status": "partial",
   "theorems": [
    "Genco.Props.C33_c_exact_partial",
    "Genco.Props.C33_c_partial",
    "Genco.Props.C33_c_negative"
   ],
   "note": "False of the code, exact: a text round trips if and only if no control character written as a hexadecimal escape is followed by a hexadecimal digit (it would be swallowed) and it contains none of U+0011, U+0012, U+0080 to U+009F (universal character names below A0 are illegal); witnesses."
  },
  {
   "property": "C34",
   "status": "partial",
   "theorems": [
    "Genco.Props.C34_csharp_exact_partial",
    "Genco.Props.C34_csharp_partial",
    "Genco.Props.C34_csharp_negative"
   ],
   "note": "False of the code, exact: a text round trips if and only if no control character written as a hexadecimal escape is followed by a hexadecimal digit and it contains neither U+0011 nor U+0012; witness for the swallowed digit."
  },
  {
   "property": "C35",
   "status": "partial",
   "theorems": [
    "Genco.Props.C35_nix_partial",
    "Genco.Props.C35_nix_exact_partial",
    "Genco.Props.C35_no_dollar_partial",
    "Genco.Props.C35_nix_negative"
   ],
   "note": "False of the code, exact: a text round trips if and only if it consists of printable ASCII, line feed, carriage return and tab and opens no antiquotation; what is read otherwise is also given exactly; witnesses."
  },
  {
   "property": "C36",
   "status": "proved",
   "theorems": [
    "Genco.Props.C36_no_breakout"
   ],
   "note": ""
  },
  {
   "property": "C37",
   "status": "partial",
   "theorems": [
    "Genco.Props.C37_template_exact_partial",
    "Genco.Props.C37_template_partial",
    "Genco.Props.C37_template_negative"
   ],
   "note": "False of the code, exact: constant text of a template round trips if and only if it has no backtick, no ${, no NUL before a digit and neither U+0011 nor U+0012; witnesses."
  },
  {
   "property": "C38",
   "status": "proved",
   "theorems": [
    "Genco.Props.C38_split",
    "Genco.Props.C38_builtin",
    "Genco.Props.C38_builtin_eval",
    "Genco.Props.C38_dart_negative"
   ],
   "note": "Any number of splits anywhere in a stream; for Dart a literal that is a whole interpolation must not be split (witness)."
  },
  {
   "property": "C39",
   "status": "proved",
   "theorems": [
    "Genco.Props.C39_rust_scope",
    "Genco.Props.C39_exact",
    "Genco.Props.C39_clash_witness"
   ],
   "note": "Exactly (iff, per import): an import resolves if and only if all declared imports claim its local name for the same path; witness of a clash (same last name from two modules) proved."
  },
  {
   "property": "C40",
   "status": "partial",
   "theorems": [
    "Genco.Props.C40_order",
    "Genco.Props.C40_content",
    "Genco.Props.C40_once_partial",
    "Genco.Props.C40_once_exact_partial",
    "Genco.Props.C40_twice_witness"
   ],
   "note": "Order and content exact; 'once' exactly (iff) when imports that ask for the same item under the same name are stored the same way; witnesses of a name and of a whole declaration printed twice."
  },
  {
   "property": "C41",
   "status": "partial",
   "theorems": [
    "Genco.Props.C41_header",
    "Genco.Props.C41_bindings",
    "Genco.Props.C41_js_partial",
    "Genco.Props.C41_default_witness"
   ],
   "note": "Header exact for all imports; C41_bindings says exactly which names the file binds to what (all imports but further default names of a module) and exactly when no name is bound twice; so every rendered name is bound to its export, and no name twice, when different imports have different names and every module one default name; witness of two default names."
  },
  {
   "property": "C42",
   "status": "partial",
   "theorems": [
    "Genco.Props.C42_header",
    "Genco.Props.C42_chosen",
    "Genco.Props.C42_denotes",
    "Genco.Props.C42_java_partial",
    "Genco.Props.C42_lang_witness",
    "Genco.Props.C42_own_witness",
    "Genco.Props.C42_shadow_witness"
   ],
   "note": "Header exact for all imports, and which of several packages a name is imported from; each reference names its class exactly if it is foreign or its simple name is not taken (iff, per import), so all do exactly if foreign names are apart from java.lang and own-package names; three witnesses otherwise. Clashes among foreign classes are handled correctly."
  },
  {
   "property": "C43",
   "status": "partial",
   "theorems": [
    "Genco.Props.C43_header",
    "Genco.Props.C43_qualified",
    "Genco.Props.C43_denotes",
    "Genco.Props.C43_csharp_partial",
    "Genco.Props.C43_used_witness",
    "Genco.Props.C43_own_witness"
   ],
   "note": "Header and choice of qualified names exact for all imports; each reference names its type exactly if it is written with its namespace, or of the own namespace, or its bare name is in no other namespace around or in use (iff, per import); witnesses of both failures."
  },
  {
   "property": "C44",
   "status": "partial",
   "theorems": [
    "Genco.Props.C44_go",
    "Genco.Props.C44_reference",
    "Genco.Props.C44_text_partial",
    "Genco.Props.C44_storage_witness"
   ],
   "note": "Exact per stored path; in terms of texts when all paths are stored the same way (witness of a path imported twice otherwise)."
  },
  {
   "property": "C45",
   "status": "partial",
   "theorems": [
    "Genco.Props.C45_python_partial",
    "Genco.Props.C45_content",
    "Genco.Props.C45_alias_witness"
   ],
   "note": "Exact, per import: a reference evaluates to what is asked for if and only if no import claims its name for another value and it does not combine another alias with a qualified form (witness: qualified + alias renders module.alias)."
  },
  {
   "property": "C46",
   "status": "partial",
   "theorems": [
    "Genco.Props.C46_dart",
    "Genco.Props.C46_reference",
    "Genco.Props.C46_text_partial",
    "Genco.Props.C46_core_alias_witness"
   ],
   "note": "Exact per stored path and alias; in terms of texts when all are stored the same way; witnesses of a duplicate import and of a dangling alias of dart:core."
  },
  {
   "property": "C47",
   "status": "partial",
   "theorems": [
    "Genco.Props.C47_c",
    "Genco.Props.C47_c_text_partial",
    "Genco.Props.C47_c_storage_witness",
    "Genco.Props.C47_swift",
    "Genco.Props.C47_swift_text_partial",
    "Genco.Props.C47_swift_storage_witness"
   ],
   "note": "Exact per stored path; in terms of texts when all are stored the same way (witnesses of duplicates otherwise)."
  },
  {
   "property": "C48",
   "status": "partial",
   "theorems": [
    "Genco.Props.C48_header",
    "Genco.Props.C48_nix_partial",
    "Genco.Props.C48_variable_witness",
    "Genco.Props.C48_with_witness"
   ],
   "note": "Header exact for all streams whose variable values are properly nested; declared is everything used directly and every argument and inherit used in the value of a variable; witnesses of an undeclared variable and an undeclared scope inside a value."
  },
  {
   "property": "C49",
   "status": "proved",
   "theorems": [
    "Genco.Props.C49_csharp",
    "Genco.Props.C49_java",
    "Genco.Props.C49_js",
    "Genco.Props.C49_js_witness",
    "Genco.Props.C49_nix",
    "Genco.Props.C49_python",
    "Genco.Props.C49_rust",
    "Genco.Props.C49_go",
    "Genco.Props.C49_c",
    "Genco.Props.C49_swift",
    "Genco.Props.C49_dart"
   ],
   "note": "All languages; JavaScript for modules with one default name (excluded in the statement)."
  },
  {
   "property": "C50",
   "status": "partial",
   "theorems": [
    "Genco.Props.C50_csharp",
    "Genco.Props.C50_java_partial",
    "Genco.Props.C50_java_exact_partial",
    "Genco.Props.C50_java_witness",
    "Genco.Props.C50_js_partial",
    "Genco.Props.C50_js_witness",
    "Genco.Props.C50_nix_partial",
    "Genco.Props.C50_nix_exact_partial",
    "Genco.Props.C50_nix_witness",
    "Genco.Props.C50_python_partial",
    "Genco.Props.C50_python_witness",
    "Genco.Props.C50_python_exact_partial",
    "Genco.Props.C50_js_exact_partial",
    "Genco.Props.C50_rust_partial",
    "Genco.Props.C50_go_partial",
    "Genco.Props.C50_c_partial",
    "Genco.Props.C50_swift_partial",
    "Genco.Props.C50_dart_partial"
   ],
   "note": "All languages, under the condition that equal texts are stored alike; witnesses of duplicates otherwise. For Go, C, Swift, Dart, Java, Nix, Python and JavaScript (the last two by statements and names in them) and the single items of Rust the condition is exact. The condition always holds for imports made from texts: C98."
  },
  {
   "property": "C51",
   "status": "partial",
   "theorems": [
    "Genco.Props.C51_behind",
    "Genco.Props.C51_settled",
    "Genco.Props.C51_loses",
    "Genco.Props.C51_csharp",
    "Genco.Props.C51_csharp_namespace",
    "Genco.Props.C51_java",
    "Genco.Props.C51_js",
    "Genco.Props.C51_nix_partial",
    "Genco.Props.C51_nix_witness",
    "Genco.Props.C51_python",
    "Genco.Props.C51_rust",
    "Genco.Props.C51_go",
    "Genco.Props.C51_c",
    "Genco.Props.C51_swift",
    "Genco.Props.C51_dart"
   ],
   "note": "All languages, and any two streams of any language (C51_behind). The lines of the body are those it has alone, up to spaces asked for before a blank line before the first text: these are dropped behind a header (C51_settled, C51_loses). For Nix a file that is not scoped always has a function head (witness)."
  },
  {
   "property": "C52",
   "status": "proved",
   "theorems": [
    "Genco.Props.C52_balanced"
   ],
   "note": "Calls made by Rust code in the macro are assumed balanced."
  },
  {
   "property": "C53",
   "status": "proved",
   "theorems": [
    "Genco.Props.C53_accepted",
    "Genco.Props.C53_level"
   ],
   "note": "Exact condition for acceptance, and the level of every token of every accepted layout, also of lines left of the first (where the macro opens no level and ends none)."
  },
  {
   "property": "C54",
   "status": "partial",
   "theorems": [
    "Genco.Props.C54_between_partial",
    "Genco.Props.C54_between_negative"
   ],
   "note": "Exact whitespace between any two neighbouring tokens; witness of two lines joined to one word."
  },
  {
   "property": "C55",
   "status": "partial",
   "theorems": [
    "Genco.Props.C55_meaning",
    "Genco.Props.C55_content",
    "Genco.Props.C55_text",
    "Genco.Props.C55_no_empty_partial",
    "Genco.Props.C55_no_empty_negative"
   ],
   "note": "Refinement of all generated code to a semantics of nodes; witness of empty constant text for the empty string."
  },
  {
   "property": "C56",
   "status": "proved",
   "theorems": [
    "Genco.Props.C56_join",
    "Genco.Props.C56_intercalate"
   ],
   "note": "The separator sees what the body binds."
  },
  {
   "property": "C57",
   "status": "partial",
   "theorems": [
    "Genco.Props.C57_unbroken",
    "Genco.Props.C57_exact_partial",
    "Genco.Props.C57_break_negative",
    "Genco.Props.C57_panic_negative"
   ],
   "note": "Exact text for tokens; a break between parts is rejected for all parts; witnesses: a break within $(...) is accepted, or makes the macro panic. Texts of token groups in a string are what Display gives and are not modelled."
  },
  {
   "property": "C58",
   "status": "proved",
   "theorems": [
    "Genco.Props.C58_requirements"
   ],
   "note": ""
  },
  {
   "property": "C59",
   "status": "proved",
   "theorems": [
    "Genco.Props.C59_round_trip",
    "Genco.Props.C59_range_form",
    "Genco.Props.C59_rejected",
    "Genco.Props.C59_unique",
    "Genco.Props.C59_cursor",
    "Genco.Props.C59_join"
   ],
   "note": "Exact: numbers may have a plus sign and the last character may be any of one byte."
  },
  {
   "property": "C60",
   "status": "proved",
   "theorems": [
    "Genco.Props.C60_lines"
   ],
   "note": "For layouts that keep to the off-side rule (by C53 these are the accepted ones whose lines do not start left of the first)."
  },
  {
   "property": "C61",
   "status": "proved",
   "theorems": [
    "Genco.Props.C61_ascii",
    "Genco.Props.C61_no_controls"
   ],
   "note": ""
  },
  {
   "property": "C62",
   "status": "proved",
   "theorems": [
    "Genco.Props.C62_injective"
   ],
   "note": ""
  },
  {
   "property": "C63",
   "status": "proved",
   "theorems": [
    "Genco.Props.C63_block"
   ],
   "note": ""
  },
  {
   "property": "C64",
   "status": "proved",
   "theorems": [
    "Genco.Props.C64_one_line",
    "Genco.Props.C64_compat"
   ],
   "note": ""
  },
  {
   "property": "C65",
   "status": "proved",
   "theorems": [
    "Genco.Props.C65_no_panic",
    "Genco.Props.C65_no_panic_span",
    "Genco.Props.C65_string_negative"
   ],
   "note": "Witness of the exception proved."
  },
  {
   "property": "C66",
   "status": "proved",
   "theorems": [
    "Genco.Props.C66_escape",
    "Genco.Props.C66_plain",
    "Genco.Props.C66_lines"
   ],
   "note": ""
  },
  {
   "property": "C67",
   "status": "proved",
   "theorems": [
    "Genco.Props.C67_grammar",
    "Genco.Props.C67_quote_in",
    "Genco.Props.C67_unique",
    "Genco.Props.C67_append",
    "Genco.Props.C67_keyword"
   ],
   "note": "syn's parsers of expressions and patterns, the keywords and Display are parameters. Includes the behaviour of a dollar before a keyword, which is text."
  },
  {
   "property": "C68",
   "status": "proved",
   "theorems": [
    "Genco.Props.C68_text",
    "Genco.Props.C68_number",
    "Genco.Props.C68_numbers_differ",
    "Genco.Props.C68_calls"
   ],
   "note": "ToString of integers is modelled as Lean decimal digits."
  },
  {
   "property": "C69",
   "status": "proved",
   "theorems": [
    "Genco.Props.C69_sequence",
    "Genco.Props.C69_option",
    "Genco.Props.C69_quoted",
    "Genco.Props.C69_register"
   ],
   "note": ""
  },
  {
   "property": "C70",
   "status": "proved",
   "theorems": [
    "Genco.Props.C70_comment",
    "Genco.Props.C70_first",
    "Genco.Props.C70_newline_negative",
    "Genco.Props.C70_follow_negative",
    "Genco.Props.C70_cancelled_negative"
   ],
   "note": "The texts are not inspected by the code: with a line break in a text the rest is outside of the comment (C70_newline_negative); what follows must start a new line (C70_follow_negative), and push followed by indent and unindent does not (C70_cancelled_negative)."
  },
  {
   "property": "C71",
   "status": "proved",
   "theorems": [
    "Genco.Props.C71_java_comment_ends",
    "Genco.Props.C71_negative"
   ],
   "note": "The condition on the texts is needed (C71_negative)."
  },
  {
   "property": "C72",
   "status": "proved",
   "theorems": [
    "Genco.Props.C72_rust",
    "Genco.Props.C72_js",
    "Genco.Props.C72_js_text",
    "Genco.Props.C72_js_one",
    "Genco.Props.C72_js_kept",
    "Genco.Props.C72_python",
    "Genco.Props.C72_python_module",
    "Genco.Props.C72_csharp",
    "Genco.Props.C72_java",
    "Genco.Props.C72_go",
    "Genco.Props.C72_swift",
    "Genco.Props.C72_c",
    "Genco.Props.C72_dart",
    "Genco.Props.C72_nix",
    "Genco.Props.C72_nix_variable"
   ],
   "note": "One import in the file. Rust: no rule for module texts with stray single colons. C#: without namespace (C41 covers the others)."
  },
  {
   "property": "C73",
   "status": "proved",
   "theorems": [
    "Genco.Props.C73_c",
    "Genco.Props.C73_swift",
    "Genco.Props.C73_dart",
    "Genco.Props.C73_go",
    "Genco.Props.C73_java",
    "Genco.Props.C73_csharp_using",
    "Genco.Props.C73_csharp_namespace",
    "Genco.Props.C73_csharp_namespace_stable",
    "Genco.Props.C73_nix",
    "Genco.Props.C73_nix_variable",
    "Genco.Props.C73_python_name",
    "Genco.Props.C73_python_one",
    "Genco.Props.C73_python_many",
    "Genco.Props.C73_python_module",
    "Genco.Props.C73_js_from",
    "Genco.Props.C73_js_wildcard",
    "Genco.Props.C73_js_element",
    "Genco.Props.C73_js_module",
    "Genco.Props.C73_rust_line",
    "Genco.Props.C73_rust_item",
    "Genco.Props.C73_rust_next",
    "Genco.Props.C73_rust_group",
    "Genco.Props.C73_csharp_namespace_negative"
   ],
   "note": "The lexer of Rust and the simple expressions and patterns of syn are models of code outside of the repository; what code in statements means (values, loops, conditions, ref scopes) is a parameter. On compilers without line information the C# namespace block is on one line (C73_csharp_namespace_stable, C73_csharp_namespace_negative)."
  },
  {
   "property": "C74",
   "status": "proved",
   "theorems": [
    "Genco.Props.C74_lines",
    "Genco.Props.C74_one_line",
    "Genco.Props.C74_accepted",
    "Genco.Props.C74_unmatched",
    "Genco.Props.C74_blank",
    "Genco.Props.C74_comment",
    "Genco.Props.C74_commented"
   ],
   "note": "The lexer is a model of code outside of the repository. Names are ASCII, numbers are digits and underscores, spaces and line breaks are the only whitespace. A line further out than all above is accepted but not set apart (C54), so C74_lines excludes it and C74_accepted includes it."
  },
  {
   "property": "C75",
   "status": "proved",
   "theorems": [
    "Genco.Props.C75_again",
    "Genco.Props.C75_fixed",
    "Genco.Props.C75_negative"
   ],
   "note": "For nightly compilers and an indentation of at least one space; C75_negative shows that levels are lost without indentation. Tabs are not in the texts of C74."
  },
  {
   "property": "C76",
   "status": "proved",
   "theorems": [
    "Genco.Props.C76_cut",
    "Genco.Props.C76_template",
    "Genco.Props.C76_nested",
    "Genco.Props.C76_text",
    "Genco.Props.C76_stream",
    "Genco.Props.C76_join",
    "Genco.Props.C76_value",
    "Genco.Props.C76_if",
    "Genco.Props.C76_loop",
    "Genco.Props.C76_each",
    "Genco.Props.C76_else",
    "Genco.Props.C76_match",
    "Genco.Props.C76_negative"
   ],
   "note": "For interpolations that write a block: visible text first and last, strings complete, back on the level they start on. C76_negative shows that the condition on the level is needed. Rust code in the macro must not append empty constant text. Languages with a special case for evaluations (Dart) only without evaluations."
  },
  {
   "property": "C77",
   "status": "proved",
   "theorems": [
    "Genco.Props.C77_void",
    "Genco.Props.C77_nested",
    "Genco.Props.C77_value",
    "Genco.Props.C77_if",
    "Genco.Props.C77_loop",
    "Genco.Props.C77_match",
    "Genco.Props.C77_column_negative",
    "Genco.Props.C77_start_negative",
    "Genco.Props.C77_blank_negative"
   ],
   "note": "C77_column_negative, C77_start_negative and C77_blank_negative show that the conditions on columns, on the first thing on a line and on blank lines are needed. Lines at the top that go must be single interpolations. Same limits on values and languages as C76."
  },
  {
   "property": "C78",
   "status": "proved",
   "theorems": [
    "Genco.Props.C78_quote",
    "Genco.Props.C78_quote_one_line",
    "Genco.Props.C78_lines",
    "Genco.Props.C78_one_line",
    "Genco.Props.C78_apart"
   ],
   "note": "Names that are keywords, strings, comments and $(\u2026) are not in the text; values as in C76. C78_apart: a dollar apart from its name is put together with it, such text is left out."
  },
  {
   "property": "C79",
   "status": "proved",
   "theorems": [
    "Genco.Props.C79_ends",
    "Genco.Props.C79_grammar",
    "Genco.Props.C79_final",
    "Genco.Props.C79_quote",
    "Genco.Props.C79_quote_in"
   ],
   "note": "The parsers of syn are assumed to end and to put no tokens back; those of the model do (takes_syn). Depth of recursion is what is bounded, not time."
  },
  {
   "property": "C80",
   "status": "proved",
   "theorems": [
    "Genco.Props.C80_imports",
    "Genco.Props.C80_import",
    "Genco.Props.C80_stream",
    "Genco.Props.C80_stream_one_line",
    "Genco.Props.C80_go",
    "Genco.Props.C80_c",
    "Genco.Props.C80_swift",
    "Genco.Props.C80_dart",
    "Genco.Props.C80_rust",
    "Genco.Props.C80_js",
    "Genco.Props.C80_python",
    "Genco.Props.C80_nix",
    "Genco.Props.C80_java",
    "Genco.Props.C80_csharp",
    "Genco.Props.C80_csharp_namespace"
   ],
   "note": "Text as in C78. Where a claim on a language has conditions (C39, C41, C42, C43, C45, C48), the theorem for it has the same. C# with a namespace: for text whose last line is on the level of the first. File text for the compiler with line information; C80_stream_one_line gives the stream on others."
  },
  {
   "property": "C81",
   "status": "proved",
   "theorems": [
    "Genco.Props.C81_lines",
    "Genco.Props.C81_unambiguous",
    "Genco.Props.C81_quote",
    "Genco.Props.C81_stable",
    "Genco.Props.C81_string",
    "Genco.Props.C81_strings",
    "Genco.Props.C81_code",
    "Genco.Props.C81_ends",
    "Genco.Props.C81_stands",
    "Genco.Props.C81_go",
    "Genco.Props.C81_c",
    "Genco.Props.C81_swift",
    "Genco.Props.C81_dart",
    "Genco.Props.C81_rust",
    "Genco.Props.C81_js",
    "Genco.Props.C81_python",
    "Genco.Props.C81_nix",
    "Genco.Props.C81_java",
    "Genco.Props.C81_csharp",
    "Genco.Props.C81_csharp_namespace"
   ],
   "note": "Compilers with and without line information; for the latter all lines of a text count as one (C81_stable). Expressions and patterns as far as the simple model of syn goes (C81_code), or any for which the parser takes exactly the text (C81_lines). Strings with code in them ($[str]) for languages that mark all code alike (not Dart, which writes names without braces), with code on one line; brackets in them are not among the rules, nor are arms in parentheses; an arm without braces does not end with punctuation in front of its comma. Text in a hole ends at the level at which it starts, and its first and last thing write something, or there is only one thing, which writes nothing. A line of holes that write nothing is at the column of the line above or of the next line left, as in C77; other lines do not start with such a hole. Rounds of a loop with a separator write something. Conditions on imports as in C80."
  },
  {
   "property": "C82",
   "status": "proved",
   "theorems": [
    "Genco.Props.C82_is_empty"
   ],
   "note": ""
  },
  {
   "property": "C83",
   "status": "partial",
   "theorems": [
    "Genco.Props.C83_same_partial",
    "Genco.Props.C83_exact_partial",
    "Genco.Props.C83_text",
    "Genco.Props.C83_lines",
    "Genco.Props.C83_same_false"
   ],
   "note": "Partial because the full claim is false (C83_same_false): a formatter that has written a file is no longer at the start of its output, so whitespace in front of the next file is written, and its level is the one the last file has left. C83_exact_partial: exactly what one formatter writes for any files. C83_same_partial: it holds if each file leaves the level as it was and each but the first begins with text. With a new formatter for each file it holds for all files (C83_text, C83_lines)."
  },
  {
   "property": "C84",
   "status": "partial",
   "theorems": [
    "Genco.Props.C84_directory_partial",
    "Genco.Props.C84_without",
    "Genco.Props.C84_never",
    "Genco.Props.C84_file_partial"
   ],
   "note": "False of the code: the specifier is computed as if the module path were a directory, so it leads one directory too far up, or is no path at all; C84_never proves that this happens for all paths. Proved: it leads to the module from the module path taken as a directory exactly if the module path does not begin with more steps up than the path of the module. The relative_path crate is written down in Model/Paths.lean."
  },
  {
   "property": "C85",
   "status": "partial",
   "theorems": [
    "Genco.Props.C85_nodes_partial",
    "Genco.Props.C85_tokens",
    "Genco.Props.C85_lexer",
    "Genco.Props.C85_text_partial",
    "Genco.Props.C85_negative"
   ],
   "note": "False of the code in Dart, where an evaluation of one text is written without braces: `$(a.b)` and `$(a. b)` in a string are written as `$a.b` and `${a. b}` (C85_negative). Proved for languages that write evaluations uniformly, or streams without evaluations, in which no string is opened directly in a string (possible only if values of the host do so). That the stream says the same and inserts the same is proved without these conditions; so are the lexer and the parser. Both layouts have to be accepted by the encoder (its indentation errors are C53)."
  },
  {
   "property": "C86",
   "status": "partial",
   "theorems": [
    "Genco.Props.C86_renders_any",
    "Genco.Props.C86_agrees",
    "Genco.Props.C86_small",
    "Genco.Props.C86_stream",
    "Genco.Props.C86_counters",
    "Genco.Props.C86_renders",
    "Genco.Props.C86_ink",
    "Genco.Props.C86_wraps_partial"
   ],
   "note": "C86_agrees, C86_small: as with overflow checks, where these do not panic. C86_stream: normal form, content and imports whatever wraps around. C86_counters: indentation but for multiples of 65536. C86_renders: output as with unbounded counters while levels stay within 16 bits; C86_renders_any the same for streams with strings. C86_ink: no text is lost. Partial because the full statement is false: C86_wraps_partial shows the layout going wrong after 32768 and 65536 indents."
  },
  {
   "property": "C87",
   "status": "proved",
   "theorems": [
    "Genco.Props.C87_accepted",
    "Genco.Props.C87_controls",
    "Genco.Props.C87_one_line",
    "Genco.Props.C87_own_line",
    "Genco.Props.C87_lost_negative"
   ],
   "note": "C87_accepted: where control functions may be. C87_controls: the rendered text, for any layout. C87_one_line: on one line. C87_own_line: on a line of its own. C87_lost_negative: a control function in front of a line further in has no effect."
  },
  {
   "property": "C88",
   "status": "proved",
   "theorems": [
    "Genco.Props.C88_parted",
    "Genco.Props.C88_spaces",
    "Genco.Props.C88_anywhere"
   ],
   "note": "C88_parted: exact text between two texts for any registrations and empty texts among the whitespace calls. C88_spaces: on one line. The _anywhere theorem holds behind any calls, in strings and in evaluations in strings, and with any calls behind."
  },
  {
   "property": "C89",
   "status": "proved",
   "theorems": [
    "Genco.Props.C89_together",
    "Genco.Props.C89_in_place",
    "Genco.Props.C89_in_place_negative",
    "Genco.Props.C89_languages",
    "Genco.Props.C89_no_eval",
    "Genco.Props.C89_output"
   ],
   "note": "C89_in_place is about equal streams, not only equal output; a witness shows that the condition on the first node is needed. C89_output: languages that differ in the hooks for interpolation only."
  },
  {
   "property": "C90",
   "status": "proved",
   "theorems": [
    "Genco.Props.C90_strings_found",
    "Genco.Props.C90_file",
    "Genco.Props.C90_rust",
    "Genco.Props.C90_swift",
    "Genco.Props.C90_python",
    "Genco.Props.C90_java",
    "Genco.Props.C90_js",
    "Genco.Props.C90_dart",
    "Genco.Props.C90_go",
    "Genco.Props.C90_c",
    "Genco.Props.C90_csharp",
    "Genco.Props.C90_nix"
   ],
   "note": "C90_strings_found for streams, C90_file for files, with uniqueness of what is found. C90_rust and C90_swift: read back. An example shows that the hypothesis on quotes in code is needed."
  },
  {
   "property": "C91",
   "status": "proved",
   "theorems": [
    "Genco.Props.C91_helpers",
    "Genco.Props.C91_assoc",
    "Genco.Props.C91_assoc_negative"
   ],
   "note": "C91_helpers: any nesting of helpers, from C10_append_closed_partial and C10_append_open_partial by induction. C91_assoc: associativity. C91_assoc_negative: the witness for a middle of mere whitespace."
  },
  {
   "property": "C92",
   "status": "partial",
   "theorems": [
    "Genco.Props.C92_js_partial",
    "Genco.Props.C92_dart_partial",
    "Genco.Props.C92_files_partial",
    "Genco.Props.C92_dart_literal_partial",
    "Genco.Props.C92_meant",
    "Genco.Props.C92_negative"
   ],
   "note": "C92_js_partial, C92_dart_partial, C92_files_partial: streams read back to any depth, for texts the language can keep (no U+0011/U+0012; in templates no backtick and no ${) and, in Dart, single literals that are names not prolonged by the text behind them. C92_dart_literal_partial: that condition is exact. C92_meant: the streams covered mean what is read. C92_negative: the full statement is false ($(name)s, $(a.b) in Dart, a backtick in JavaScript)."
  },
  {
   "property": "C93",
   "status": "proved",
   "theorems": [
    "Genco.Props.C93_bound",
    "Genco.Props.C93_checked",
    "Genco.Props.C93_wrapping",
    "Genco.Props.C93_witness"
   ],
   "note": "The bound holds for every stream and writer; overflow and wrap-around are exact for streams without strings."
  },
  {
   "property": "C94",
   "status": "partial",
   "theorems": [
    "Genco.Props.C94_irrefutable",
    "Genco.Props.C94_join_partial",
    "Genco.Props.C94_witness"
   ],
   "note": "The full statement is false (C94_witness). C94_join_partial: exactly what is written for any pattern; C94_irrefutable: nothing changes where patterns take every element."
  },
  {
   "property": "C95",
   "status": "proved",
   "theorems": [
    "Genco.Props.C95_order",
    "Genco.Props.C95_injective",
    "Genco.Props.C95_set",
    "Genco.Props.C95_map"
   ],
   "note": "The encoding is String.utf8EncodeChar of the Lean library."
  },
  {
   "property": "C96",
   "status": "proved",
   "theorems": [
    "Genco.Props.C96_denotes",
    "Genco.Props.C96_witness"
   ],
   "note": "Values of variables are expressions as in C48. What the path of an inherit or scope leads to is given by attrs; of the path itself only the first name is looked up. C96_witness: the code does not keep names apart."
  },
  {
   "property": "C97",
   "status": "proved",
   "theorems": [
    "Genco.Props.C97_go",
    "Genco.Props.C97_go_witness",
    "Genco.Props.C97_dart",
    "Genco.Props.C97_dart_witness"
   ],
   "note": "Names declared by packages and exported by libraries are parameters. C97_go_witness: a package whose name is not its last segment, two packages of one name. C97_dart_witness: a system library whose name gives way."
  },
  {
   "property": "C98",
   "status": "proved",
   "theorems": [
    "Genco.Props.C98_into",
    "Genco.Props.C98_go",
    "Genco.Props.C98_swift",
    "Genco.Props.C98_c",
    "Genco.Props.C98_dart",
    "Genco.Props.C98_rust",
    "Genco.Props.C98_python",
    "Genco.Props.C98_js",
    "Genco.Props.C98_java",
    "Genco.Props.C98_nix"
   ],
   "note": "C98_into: every conversion gives a boxed text. JavaScript modules given as texts, not as paths. For C# see C43_header, which has no condition on storage. Example: an ItemStr that is not boxed differs from the same text."
  },
  {
   "property": "C99",
   "status": "partial",
   "theorems": [
    "Genco.Props.C99_before_partial",
    "Genco.Props.C99_between_partial",
    "Genco.Props.C99_behind_partial",
    "Genco.Props.C99_without",
    "Genco.Props.C99_dropped",
    "Genco.Props.C99_others",
    "Genco.Props.C99_negative"
   ],
   "note": "The full claim is false: parse_match looks for attributes behind the braces of the match, not before its arms (C99_negative). Proved exactly: what is accepted and which arm gets which attributes (C99_behind_partial), that attributes before arms are refused, and what an inactive attribute drops. Reading of attributes, patterns and expressions by syn is a parameter."
  },
  {
   "property": "C100",
   "status": "proved",
   "theorems": [
    "Genco.Props.C100_swift",
    "Genco.Props.C100_c",
    "Genco.Props.C100_swift_witness",
    "Genco.Props.C100_c_witness"
   ],
   "note": "What modules and headers declare is a parameter; headers that declare the same thing twice are not considered. C100_swift_witness, C100_c_witness: names of two modules or headers."
  },
  {
   "property": "C101",
   "status": "proved",
   "theorems": [
    "Genco.Props.C101_column",
    "Genco.Props.C101_message",
    "Genco.Props.C101_clear",
    "Genco.Props.C101_nearest_negative",
    "Genco.Props.C101_only",
    "Genco.Props.C101_helps",
    "Genco.Props.C101_ends",
    "Genco.Props.C101_accepted",
    "Genco.Props.C101_text"
   ],
   "note": "For macros made of tokens; C103 is about all others. C101_nearest_negative: a column nearer to the token, in the other direction, may be accepted too; the message does not name it."
  },
  {
   "property": "C102",
   "status": "proved",
   "theorems": [
    "Genco.Props.C102_readable",
    "Genco.Props.C102_each",
    "Genco.Props.C102_size",
    "Genco.Props.C102_tight"
   ],
   "note": "The table of languages is Genco.Props.sizes. That the literals are read back is C26 to C35."
  },
  {
   "property": "C103",
   "status": "proved",
   "theorems": [
    "Genco.Props.C103_accepted",
    "Genco.Props.C103_error",
    "Genco.Props.C103_column",
    "Genco.Props.C103_message"
   ],
   "note": "Blocks and pieces are those of Spec/Blame. Which of several faulty blocks is reported is not said. Acceptance of tokens is C53, the column named C101."
  },
  {
   "property": "C104",
   "status": "partial",
   "theorems": [
    "Genco.Props.C104_makers",
    "Genco.Props.C104_lines_partial",
    "Genco.Props.C104_file_lines_partial",
    "Genco.Props.C104_default_lines_partial",
    "Genco.Props.C104_text_partial",
    "Genco.Props.C104_file_text_partial",
    "Genco.Props.C104_false"
   ],
   "note": "The full statement is false (C104_false): a text that begins with four spaces, a line break in a text, a line break in a string opened directly in a string. Conversion from any configuration for lines, from the default for whole texts. Conditions are on the lines without indentation (Space(0))."
  },
  {
   "property": "C105",
   "status": "partial",
   "theorems": [
    "Genco.Props.C105_java_written",
    "Genco.Props.C105_java",
    "Genco.Props.C105_java_file",
    "Genco.Props.C105_java_differs",
    "Genco.Props.C105_csharp_written",
    "Genco.Props.C105_csharp_partial",
    "Genco.Props.C105_csharp_negative",
    "Genco.Props.C105_csharp_file",
    "Genco.Props.C105_csharp_differs",
    "Genco.Props.C105_rust_mode",
    "Genco.Props.C105_settings",
    "Genco.Props.C105_csharp_settings"
   ],
   "note": "Partial for C# only: C105_csharp_partial is exact, C105_csharp_negative shows that no file can make such a text mean two types of one name. The meaning of names is that of C42 and C43."
  },
  {
   "property": "C106",
   "status": "proved",
   "theorems": [
    "Genco.Props.C106_csharp",
    "Genco.Props.C106_csharp_usings",
    "Genco.Props.C106_csharp_body",
    "Genco.Props.C106_csharp_witness",
    "Genco.Props.C106_java",
    "Genco.Props.C106_java_worded",
    "Genco.Props.C106_java_imports",
    "Genco.Props.C106_java_body",
    "Genco.Props.C106_java_witness"
   ],
   "note": ""
  },
  {
   "property": "C107",
   "status": "proved",
   "theorems": [
    "Genco.Props.C107_text",
    "Genco.Props.C107_lines",
    "Genco.Props.C107_eval_needed",
    "Genco.Props.C107_nested_needed"
   ],
   "note": ""
  },
  {
   "property": "C108",
   "status": "proved",
   "theorems": [
    "Genco.Props.C108_go",
    "Genco.Props.C108_c",
    "Genco.Props.C108_swift",
    "Genco.Props.C108_dart",
    "Genco.Props.C108_js",
    "Genco.Props.C108_rust",
    "Genco.Props.C108_python",
    "Genco.Props.C108_nix",
    "Genco.Props.C108_rust_witness"
   ],
   "note": ""
  },
  {
   "property": "C109",
   "status": "proved",
   "theorems": [
    "Genco.Props.C109_code",
    "Genco.Props.C109_source",
    "Genco.Props.C109_once"
   ],
   "note": "A separator is a part of its loop: the generated loop has it behind the body. $name in a $[str] is constant text in the generated code."
  },
  {
   "property": "C110",
   "status": "proved",
   "theorems": [
    "Genco.Props.C110_used",
    "Genco.Props.C110_said",
    "Genco.Props.C110_generated",
    "Genco.Props.C110_unbound"
   ],
   "note": "C110_unbound: text directly in front of $(ref _ => code) is appended behind that code, as encode_scope does not flush; the code cannot name the stream."
  },
  {
   "property": "C111",
   "status": "proved",
   "theorems": [
    "Genco.Props.C111_lines",
    "Genco.Props.C111_text",
    "Genco.Props.C111_inside",
    "Genco.Props.C111_block",
    "Genco.Props.C111_program",
    "Genco.Props.C111_all",
    "Genco.Props.C111_inside_needed",
    "Genco.Props.C111_level_needed",
    "Genco.Props.C111_begin_needed"
   ],
   "note": "C111_level_needed, C111_inside_needed and C111_begin_needed show that the conditions on levels and on the text in the beginning are needed. A piece may end with a text, a language item or the end of a string."
  },
  {
   "property": "C112",
   "status": "proved",
   "theorems": [
    "Genco.Props.C112_text",
    "Genco.Props.C112_go",
    "Genco.Props.C112_c",
    "Genco.Props.C112_swift",
    "Genco.Props.C112_dart",
    "Genco.Props.C112_python",
    "Genco.Props.C112_js",
    "Genco.Props.C112_rust",
    "Genco.Props.C112_java",
    "Genco.Props.C112_csharp",
    "Genco.Props.C112_csharp_namespace",
    "Genco.Props.C112_nix",
    "Genco.Props.C112_java_whole"
   ],
   "note": "The parts are laid out with the imports of the whole file (C112_java_whole shows that this matters); what the references mean is stated for Rust, Python and JavaScript here, and for the others in C42 to C47 and C97, C100."
  },
  {
   "property": "C113",
   "status": "proved",
   "theorems": [
    "Genco.Props.C113_go",
    "Genco.Props.C113_c",
    "Genco.Props.C113_swift",
    "Genco.Props.C113_dart",
    "Genco.Props.C113_python",
    "Genco.Props.C113_js",
    "Genco.Props.C113_rust",
    "Genco.Props.C113_java",
    "Genco.Props.C113_csharp",
    "Genco.Props.C113_csharp_namespace",
    "Genco.Props.C113_nix",
    "Genco.Props.C113_several_lines",
    "Genco.Props.C113_perm",
    "Genco.Props.C113_rust_perm",
    "Genco.Props.C113_java_perm",
    "Genco.Props.C113_js_needed"
   ],
   "note": "C113_js_needed shows that the condition on default imports cannot be dropped. For Java and C# the parts of both programs are laid out with the imports of the first, which is the same as with those of the second."
  },
  {
   "property": "C114",
   "status": "proved",
   "theorems": [
    "Genco.Props.C114_leaf",
    "Genco.Props.C114_text",
    "Genco.Props.C114_accepted",
    "Genco.Props.C114_program",
    "Genco.Props.C114_lines",
    "Genco.Props.C114_needed"
   ],
   "note": "Programs may mix such texts with other code (Program.leaf), so C112 and C113 give the files. C114_needed is a witness of the code: the condition on the last line cannot be dropped."
  },
  {
   "property": "C115",
   "status": "proved",
   "theorems": [
    "Genco.Props.C115_block",
    "Genco.Props.C115_leaf",
    "Genco.Props.C115_stream",
    "Genco.Props.C115_program",
    "Genco.Props.C115_lines"
   ],
   "note": "C115_block: all blocks of C76 that begin and end with text (not with an import alone or an empty text) can be parts of programs. C115_stream shows that collecting keeps this, so templates nest. C115_program gives a Program, so C112 and C113 give the files."
  },
  {
   "property": "C116",
   "status": "proved",
   "theorems": [
    "Genco.Props.C116_leaf",
    "Genco.Props.C116_program",
    "Genco.Props.C116_go",
    "Genco.Props.C116_c",
    "Genco.Props.C116_swift",
    "Genco.Props.C116_dart",
    "Genco.Props.C116_js",
    "Genco.Props.C116_python",
    "Genco.Props.C116_rust",
    "Genco.Props.C116_java",
    "Genco.Props.C116_csharp",
    "Genco.Props.C116_nix"
   ],
   "note": "In Java and C# the values are rendered with the imports of all the texts together (merely (t.uses ..)), because how references are written there depends on the whole file; C# is stated given that the names are apart, Nix given that the values of variables are expressions."
  }
 ]
}