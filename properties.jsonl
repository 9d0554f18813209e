{"id": "C01", "title": "Lexing is lossless", "statement": "lex(source) splits any text into tokens whose byte spans start at 0, touch each other without gap or overlap, are non-empty, and end at source.len(); concatenating the token texts gives back the source, and the list ends with exactly one empty EOF token.", "quantifier": "every source text, valid TOML or not, of any length", "why_tests_cant": "an editor/formatter relies on it for arbitrary broken input; tests sample a few texts", "anchors": ["crates/tombi-lexer/src/lib.rs: lex, tokenize, Cursor::advance_token", "crates/tombi-lexer/src/cursor.rs: Cursor"]}
{"id": "C02", "title": "Token positions are the true line/column", "statement": "Every token returned by lex carries a range whose start and end are the line (number of line feeds before) and column (characters since the last line feed) of its span's start and end, so start <= end and consecutive tokens share their boundary.", "quantifier": "every source text and every token in it", "why_tests_cant": "diagnostics are placed by these positions; must hold for any mix of multi-line tokens, CR, NUL and multi-byte characters", "anchors": ["crates/tombi-lexer/src/lib.rs: lex", "crates/tombi-lexer/src/cursor.rs: bump, pop_span_range", "crates/tombi-text/src/position.rs: Position", "crates/tombi-text/src/relative_position.rs: From<char>"]}
{"id": "C03", "title": "Each lexical error is one invalid token", "statement": "lex terminates on every text; errors are reported in order, one per INVALID_TOKEN token and with the same span and range; every other token kind is reported without an error.", "quantifier": "every source text", "why_tests_cant": "no finite test set covers all malformed inputs", "anchors": ["crates/tombi-lexer/src/lib.rs: lex", "crates/tombi-lexer/src/lexed.rs: push_result_token"]}
{"id": "C04", "title": "Number and date-time tokens have the shape their kind promises", "statement": "A token of kind INTEGER_BIN/OCT/HEX/DEC, FLOAT, OFFSET_DATE_TIME, LOCAL_DATE_TIME, LOCAL_DATE, LOCAL_TIME or BOOLEAN only ever covers a text of the corresponding TOML grammar production.", "quantifier": "every source text and every token produced", "why_tests_cant": "grammar membership over unboundedly many literals; regex typos ([0|1], (:?) are invisible to sampled tests", "anchors": ["crates/tombi-lexer/src/lib.rs: REGEX_*, number, date_time, time"]}
{"id": "C05", "title": "String tokens end where TOML says the string ends", "statement": "For every well-formed single-line basic or literal string literal followed by anything, the lexer produces exactly one string token covering precisely that literal; likewise for multi-line strings.", "quantifier": "every string body and every following text", "why_tests_cant": "escape/quote interaction is unbounded; a wrong boundary silently swallows the rest of the document", "anchors": ["crates/tombi-lexer/src/lib.rs: basic_string, literal_string, multi_line_basic_string, multi_line_literal_string"]}
{"id": "C06", "title": "Comments, line breaks and whitespace are recognised exactly", "statement": "A COMMENT token is '#' up to but excluding the next CR or LF; a LINE_BREAK token is LF or CRLF; a WHITESPACE token is a maximal run of spaces and tabs.", "quantifier": "every source text and every such token", "why_tests_cant": "maximality is a statement about all contexts", "anchors": ["crates/tombi-lexer/src/lib.rs: line_comment, line_break, whitespace"]}
{"id": "C07", "title": "Parsing is lossless", "statement": "The syntax tree built by parse(source) contains every character of the source exactly once and in order: its text equals the source.", "quantifier": "every source text, including invalid TOML", "why_tests_cant": "the formatter and the LSP edit this tree; loss on any malformed input corrupts user files", "anchors": ["crates/tombi-parser/src/lib.rs: parse", "crates/tombi-parser/src/parser.rs: Parser, finish", "crates/tombi-parser/src/builder.rs: build_green_tree", "crates/tombi-parser/src/output.rs"]}
{"id": "C08", "title": "Parsing terminates without panicking", "statement": "parse(source) finishes on every text and never panics: no token index goes out of range, no bracket counter underflows, no open node marker is dropped, no node is closed that is not open.", "quantifier": "every source text / every token sequence", "why_tests_cant": "unbounded malformed inputs; a hang or crash in the editor is triggered by one unlucky text", "anchors": ["crates/tombi-parser/src/parser.rs", "crates/tombi-parser/src/marker.rs: Marker", "crates/tombi-parser/src/parse/*.rs"]}
{"id": "C09", "title": "Parser recursion is bounded", "statement": "However deeply arrays and inline tables are nested in the source, the parser never recurses into more than 128 nested values, and the nesting depth of the produced tree is bounded accordingly; deeper values are reported as an error.", "quantifier": "every source text", "why_tests_cant": "stack overflow needs inputs deeper than tests use", "anchors": ["crates/tombi-parser/src/parser.rs: MAX_RECURSION_DEPTH, enter_nested, exit_nested", "crates/tombi-parser/src/parse/array.rs", "crates/tombi-parser/src/parse/inline_table.rs"]}
{"id": "C10", "title": "Parser events form one well-nested tree", "statement": "The event stream produced for any input is balanced (every opened node is closed once, in stack order) with a single ROOT node around everything.", "quantifier": "every source text", "why_tests_cant": "structural invariant over all executions of the parser", "anchors": ["crates/tombi-parser/src/event.rs", "crates/tombi-parser/src/marker.rs", "crates/tombi-parser/src/output.rs"]}
{"id": "C11", "title": "Parser output encoding is reversible", "statement": "Every tree step written to the packed parser output is read back as the same step in the same order.", "quantifier": "every sequence of steps (tokens of any kind and raw-token count below 256, node enters/exits, errors)", "why_tests_cant": "bit packing must be right for all field values", "anchors": ["crates/tombi-parser/src/output.rs: Output"]}
{"id": "C12", "title": "Token sets are sets", "statement": "TokenSet::new(kinds).contains(k) holds exactly when k is listed.", "quantifier": "every list of kinds and every kind", "why_tests_cant": "all kinds x all sets", "anchors": ["crates/tombi-parser/src/token_set.rs"]}
{"id": "C13", "title": "Basic strings decode per the TOML specification", "statement": "Decoding a basic string yields the text the TOML specification assigns to it for the chosen TOML version, and reports an error exactly when the string is not valid in that version.", "quantifier": "every string body and TOML version", "why_tests_cant": "unbounded bodies; escape combinations", "anchors": ["crates/tombi-toml-text/src/lib.rs: try_from_basic_string, parse_basic_string"]}
{"id": "C14", "title": "Encoding a string and decoding it gives the string back", "statement": "For every text s, to_basic_string(s) decodes to s.", "quantifier": "every text and TOML version", "why_tests_cant": "quantifies over all strings incl. control characters", "anchors": ["crates/tombi-toml-text/src/lib.rs: to_basic_string, try_from_basic_string"]}
{"id": "C15", "title": "Literal strings decode verbatim", "statement": "A literal string decodes to exactly the characters between its quotes and is rejected exactly when it contains a control character other than tab (multi-line: other than tab and line breaks).", "quantifier": "every string body", "why_tests_cant": "all bodies", "anchors": ["crates/tombi-toml-text/src/lib.rs: try_from_literal_string, try_from_multi_line_literal_string"]}
{"id": "C16", "title": "Multi-line strings drop exactly the first line break", "statement": "In a multi-line string a line break immediately after the opening delimiter is dropped, and nothing else is dropped from the front.", "quantifier": "every multi-line string body", "why_tests_cant": "all bodies with any number of leading line breaks (LF/CRLF)", "anchors": ["crates/tombi-toml-text/src/lib.rs: try_from_multi_line_basic_string, try_from_multi_line_literal_string"]}
{"id": "C17", "title": "Rendered keys parse back to the same key", "statement": "For every key text k, the text produced for showing/inserting the key (to_key_string) is a bare or quoted key that decodes to k.", "quantifier": "every key text", "why_tests_cant": "all strings; quoting decisions", "anchors": ["crates/tombi-toml-text/src/lib.rs: to_key_string, try_from_bare_key"]}
{"id": "C18", "title": "Bare keys are validated exactly", "statement": "A bare key is accepted exactly when it is made of the characters TOML allows for that version.", "quantifier": "every text and TOML version", "why_tests_cant": "all strings", "anchors": ["crates/tombi-toml-text/src/lib.rs: try_from_bare_key"]}
{"id": "C19", "title": "Integer literals evaluate to their mathematical value", "statement": "A decimal, hexadecimal, octal or binary literal evaluates to the integer it denotes, ignoring underscores, and is an error exactly when the value does not fit a signed 64-bit integer.", "quantifier": "every literal accepted by the lexer", "why_tests_cant": "unbounded digit strings and the i64 boundary", "anchors": ["crates/tombi-ast/src/support/literal/integer.rs: try_from_decimal, try_from_hexadecimal, try_from_octal, try_from_binary"]}
{"id": "C20", "title": "Date-times print and parse back", "statement": "Every valid date, time, local date-time and offset date-time value is printed to a text that parses back to the same value.", "quantifier": "every valid value", "why_tests_cant": "the full calendar x time x fraction x offset space", "anchors": ["crates/tombi-date-time/src/private/*.rs"]}
{"id": "C21", "title": "Only real calendar values are accepted", "statement": "A parsed date is a real calendar date (month length, leap years) and a parsed time has hour < 24, minute < 60, second <= 60; everything else is rejected.", "quantifier": "every input text", "why_tests_cant": "all texts", "anchors": ["crates/tombi-date-time/src/private/date_time.rs: FromStr"]}
{"id": "C22", "title": "Version sort is a consistent order", "statement": "version_sort is a total preorder on strings (reflexive, transitive, total, and swapping arguments reverses the result), so sorting with it is well defined and never panics.", "quantifier": "every pair/triple of strings", "why_tests_cant": "transitivity over all triples; inconsistent comparators make slice::sort panic", "anchors": ["crates/tombi-version-sort/src/lib.rs: version_sort"]}
{"id": "C23", "title": "Span operations are interval operations", "statement": "contains, intersect, cover, ordering, checked_add/checked_sub on spans mean the interval operations on the offsets they denote.", "quantifier": "every pair of spans", "why_tests_cant": "all 32-bit offsets", "anchors": ["crates/tombi-text/src/span.rs"]}
{"id": "C24", "title": "Position arithmetic agrees with text", "statement": "Adding the relative position of a text to a position is the position after that text, for texts cut between graphemes; adding is associative, and subtraction undoes it.", "quantifier": "every pair of texts and positions", "why_tests_cant": "all texts", "anchors": ["crates/tombi-text/src/position.rs", "crates/tombi-text/src/relative_position.rs"]}
{"id": "C25", "title": "Line index finds the right line", "statement": "The line index splits any text into its lines (without terminators), and converting positions between the editor's encoding and internal positions round-trips for positions on character boundaries.", "quantifier": "every text, line and column, each encoding", "why_tests_cant": "all texts x positions x encodings", "anchors": ["crates/tombi-text/src/features/lsp/line_index.rs", "crates/tombi-text/src/features/lsp/from_lsp.rs", "crates/tombi-text/src/features/lsp/into_lsp.rs"]}
{"id": "C26", "title": "Document-tree tables never hold a key twice", "statement": "Building the document tree from any sequence of key-values and table headers yields tables in which every key occurs once, in order of first appearance.", "quantifier": "every sequence of root items", "why_tests_cant": "all histories of insertions/merges", "anchors": ["crates/tombi-document-tree/src/value/table.rs: insert, merge", "crates/tombi-document-tree/src/root.rs"]}
{"id": "C27", "title": "No accepted value is lost or changed by later items", "statement": "If a document is accepted without errors, each key-value of each section is found in the document tree at its full key path with its own value, and nothing else is in the tree.", "quantifier": "every error-free document", "why_tests_cant": "all documents; merges can overwrite silently", "anchors": ["crates/tombi-document-tree/src/value/table.rs: merge, insert", "crates/tombi-document-tree/src/value/array.rs: merge"]}
{"id": "C28", "title": "Duplicate definitions are always reported", "statement": "A document in which the same key is assigned twice, a table is defined twice, or a value is reopened as a table is reported with an error.", "quantifier": "every document", "why_tests_cant": "all documents", "anchors": ["crates/tombi-document-tree/src/value/table.rs: merge, insert"]}
{"id": "C29", "title": "Array-of-tables sections append in order", "statement": "The i-th [[name]] section becomes the i-th element of the array name, and sub-tables go to the last element.", "quantifier": "every sequence of sections", "why_tests_cant": "histories", "anchors": ["crates/tombi-document-tree/src/value/array.rs", "crates/tombi-document-tree/src/value/table.rs"]}
{"id": "C30", "title": "Key sorting only permutes", "statement": "Sorting table keys (any order, with or without schema groups) returns exactly the same items, each once; equal keys keep their relative order.", "quantifier": "every list of items, every order, every schema group layout", "why_tests_cant": "all lists; loss of an item destroys user data", "anchors": ["crates/tombi-ast-editor/src/rule/table_keys_order.rs: sort_targets, sort_table_targets, get_sorted_accessors"]}
{"id": "C31", "title": "Key sorting sorts", "statement": "After sorting with ascending/descending/version order the keys are in that order; keys outside the sorted groups keep their positions.", "quantifier": "every list of items", "why_tests_cant": "all lists", "anchors": ["crates/tombi-ast-editor/src/rule/table_keys_order.rs"]}
{"id": "C32", "title": "Array sorting only permutes and keeps commas valid", "statement": "Sorting array values keeps exactly the same values, each followed by a comma except possibly the last, and preserves every comment.", "quantifier": "every list of array values", "why_tests_cant": "all lists and comma/comment placements", "anchors": ["crates/tombi-ast-editor/src/rule/array_values_order.rs", "crates/tombi-ast-editor/src/rule/array_comma_trailing_comment.rs"]}
{"id": "C33", "title": "Requoting preserves string values", "statement": "When the formatter changes the quote style of a string or key, the decoded value is unchanged; when it cannot, the text is left alone.", "quantifier": "every valid string literal", "why_tests_cant": "all strings", "anchors": ["crates/tombi-formatter/src/format.rs: requote_string"]}
{"id": "C34", "title": "Comment formatting is idempotent and keeps the words", "statement": "Formatting a comment twice equals formatting it once, the result is still a comment on one line, and apart from blanks after the '#' prefix and trailing blanks its text is unchanged.", "quantifier": "every comment text", "why_tests_cant": "all comment texts", "anchors": ["crates/tombi-formatter/src/format/comment.rs: format_comment"]}
{"id": "C35", "title": "JSON lexing is lossless", "statement": "tombi_json_lexer::lex splits any text into touching non-empty tokens covering it, ending with EOF.", "quantifier": "every text", "why_tests_cant": "all malformed inputs", "anchors": ["crates/tombi-json-lexer/src/lib.rs"]}
{"id": "C36", "title": "JSON strings decode per RFC 8259", "statement": "A JSON string token is decoded to the text RFC 8259 assigns, including surrogate pairs, and rejected otherwise.", "quantifier": "every string body", "why_tests_cant": "all bodies", "anchors": ["crates/tombi-json/src/parser.rs: parse_string"]}
{"id": "C37", "title": "JSON documents parse back to what was printed", "statement": "Parsing the JSON rendering of any JSON value (nesting below the limit) yields that value; duplicate keys and excessive nesting are rejected; the parser terminates on every token list.", "quantifier": "every JSON value / every text", "why_tests_cant": "unbounded values", "anchors": ["crates/tombi-json/src/parser.rs: Parser"]}
{"id": "C38", "title": "Numeric schema bounds are enforced exactly", "statement": "An integer passes minimum/maximum/exclusive bounds/multipleOf/const/enum exactly when the JSON Schema meaning of each keyword holds.", "quantifier": "every integer value and bound", "why_tests_cant": "all 64-bit values", "anchors": ["crates/tombi-validator/src/validate/integer.rs", "crates/tombi-validator/src/validate.rs"]}
{"id": "C39", "title": "oneOf/anyOf/allOf/not/if-then-else have their JSON Schema meaning", "statement": "The assertion outcome of a composed schema is the boolean combination of its members' outcomes required by JSON Schema, independently of diagnostic severities.", "quantifier": "every list of member outcomes and severity configuration", "why_tests_cant": "all combinations of outcomes and disabled diagnostics", "anchors": ["crates/tombi-validator/src/validate/{one_of,any_of,all_of,not_schema,if_then_else}.rs", "crates/tombi-validator/src/invalid.rs"]}
{"id": "C40", "title": "Accessor paths print and parse back", "statement": "A schema accessor path printed as text parses back to the same path.", "quantifier": "every path of keys, indices and wildcards", "why_tests_cant": "all keys", "anchors": ["crates/tombi-accessor/src/schema_accessor.rs", "crates/tombi-accessor/src/pattern_accessor.rs"]}
{"id": "C41", "title": "The cache never serves stale or disabled entries", "statement": "read_from_cache returns content only if caching is enabled and the file is not older than the TTL, and after save_to_cache the next read within the TTL returns the saved bytes; different schema URIs use different files.", "quantifier": "every history of saves, reads and clock values; every pair of URIs", "why_tests_cant": "histories and all URI pairs", "anchors": ["crates/tombi-cache/src/lib.rs"]}
{"id": "C42", "title": "Concurrent document changes converge to the last one", "statement": "However the handlers of several didChange notifications interleave, once all have finished the stored document has the text of the change applied last and the TOML version resolved for that text.", "quantifier": "every interleaving of any number of change handlers", "why_tests_cant": "schedules", "anchors": ["crates/tombi-lsp/src/handler/did_change.rs: handle_did_change", "crates/tombi-lsp/src/document.rs"]}
{"id": "C43", "title": "Out-of-order lints report exactly the interrupted groups", "statement": "tables-out-of-order (resp. dotted-keys-out-of-order) reports a table (key) exactly when another group's table (key) lies between two members of its group.", "quantifier": "every list of headers/keys", "why_tests_cant": "all lists", "anchors": ["crates/tombi-linter/src/rule/tables_out_of_order.rs", "crates/tombi-linter/src/rule/dotted_keys_out_of_order.rs"]}
{"id": "C44", "title": "Joint bits tell exactly which tokens touch", "statement": "The joint bit of token n (queried for the tokens before the end-of-file token) is set exactly when neither token n nor token n+1 is a run of spaces/tabs and token n+1 is not the end of file.", "quantifier": "every text and token index", "why_tests_cant": "all lengths around 64-bit word boundaries", "anchors": ["crates/tombi-lexer/src/lexed.rs", "crates/tombi-lexer/src/lib.rs: lex"]}
{"id": "C45", "title": "Every valid number, boolean and date-time literal is one token", "statement": "Every decimal/hex/octal/binary integer, float, boolean, offset/local date-time, local date and local time of the TOML 1.1 grammar, followed by the end of the text, a delimiter, blank, line break or comment, becomes exactly one token of the corresponding kind covering exactly the literal.", "quantifier": "every literal of the grammar, every text before and after it", "why_tests_cant": "the literals are unboundedly many and several regexes are tried in sequence", "anchors": ["crates/tombi-lexer/src/lib.rs: number, date_time, time, advance_token"]}
{"id": "C46", "title": "Float literals are accepted exactly when they are TOML floats", "statement": "Of the texts the lexer takes for floats, evaluation accepts exactly those of the TOML grammar: misplaced underscores and leading zeros are reported, everything else is accepted, and evaluation never panics.", "quantifier": "every float token of every document", "why_tests_cant": "unbounded digit strings with underscores, signs and exponents", "anchors": ["crates/tombi-ast/src/support/literal/float.rs: try_from_float"]}
{"id": "C47", "title": "Date-time literals follow the TOML version", "statement": "A date or time literal of a document evaluates to a value exactly when its text is valid for the chosen TOML version (seconds may be left out only from 1.1 on) and names a real calendar value, and the value is the one denoted.", "quantifier": "every date-time token of every document, each TOML version", "why_tests_cant": "all texts x versions", "anchors": ["crates/tombi-document-tree/src/support/chrono.rs: try_new_offset_date_time, try_new_local_date_time, try_new_local_date, try_new_local_time, make_datetime_str"]}
{"id": "C48", "title": "Conversion from chrono keeps the date-time", "statement": "Converting a chrono date-time with a fixed offset gives an offset date-time with the same local date and time, fraction and offset.", "quantifier": "every chrono date-time with a four-digit year", "why_tests_cant": "all dates x times x offsets", "anchors": ["crates/tombi-date-time/src/offset_date_time.rs: From<chrono::DateTime<chrono::FixedOffset>>"]}
{"id": "C49", "title": "Version sort orders numbers by value", "statement": "Keys that agree up to a number are ordered by the value of that number (v9 before v10), whatever follows it.", "quantifier": "every common prefix, every pair of numbers, every rest", "why_tests_cant": "numbers of any length in any context", "anchors": ["crates/tombi-version-sort/src/lib.rs: version_sort, VersionChunkIter"]}
{"id": "C50", "title": "Version sort distinguishes different keys", "statement": "Two keys compare equal under version sort only if they are the same up to hyphens and underscores.", "quantifier": "every pair of strings", "why_tests_cant": "all pairs of strings", "anchors": ["crates/tombi-version-sort/src/lib.rs: version_sort"]}
{"id": "C51", "title": "Formatting edits turn the document into the formatted text", "statement": "When formatting changes a document, the language server's answer is one edit, and applying it in the editor (positions counted in the negotiated encoding) gives exactly the formatted text; when formatting changes nothing there is no edit.", "quantifier": "every pair of document and formatted text, each encoding", "why_tests_cant": "all pairs of texts, with graphemes of several characters, both line terminators and characters outside the BMP", "anchors": ["crates/tombi-lsp/src/handler/formatting.rs compute_text_edits, position_at_offset", "crates/tombi-text/src/features/lsp/line_index.rs"]}
{"id": "C52", "title": "Token ranges reach the editor unchanged", "statement": "The range of a token, converted for the editor, is the editor's range of the text the token covers.", "quantifier": "every document, token and encoding", "why_tests_cant": "all documents; the two sides count columns in different units", "anchors": ["crates/tombi-lexer/src/cursor.rs bump", "crates/tombi-text/src/relative_position.rs", "crates/tombi-text/src/features/lsp/from_lsp.rs"]}
{"id": "C53", "title": "Valid documents are accepted", "statement": "A document that follows the definition rules of TOML (no key or table defined twice, no value extended) is converted without errors.", "quantifier": "every valid document", "why_tests_cant": "all documents; valid documents are an infinite set", "anchors": ["crates/tombi-document-tree/src/value/table.rs: merge, insert", "crates/tombi-document-tree/src/root.rs", "crates/tombi-ast/src/impls/table.rs: parent_array_of_tables_keys"]}
{"id": "C54", "title": "Header accessors name the section's table", "statement": "The accessors computed for a table header (used for schemas, hovers and sorting) are the path of the table that the header opens in the document.", "quantifier": "every document, every section", "why_tests_cant": "all documents; array indices depend on every earlier header", "anchors": ["crates/tombi-ast/src/lib.rs: get_header_accessors", "crates/tombi-ast/src/impls/table.rs: header_accessors, parent_array_of_tables_keys"]}
{"id": "C55", "title": "Sorting does not change the document", "statement": "Reordering key-values and sections (any order, any schema) leaves the set of values a document denotes unchanged: the same scalars at the same paths.", "quantifier": "every accepted document, every order, every schema", "why_tests_cant": "all documents; array elements are numbered by position, so moving a section can renumber them", "anchors": ["crates/tombi-ast-editor/src/rule/root_table_keys_order.rs", "crates/tombi-ast-editor/src/rule/table_keys_order.rs"]}
{"id": "C56", "title": "Date-time delimiter formatting keeps the value", "statement": "When the formatter changes the character between date and time, nothing else of the literal changes, it does not panic, and the literal evaluates to the same value or error in every TOML version.", "quantifier": "every local or offset date-time token of every document, every delimiter setting, every TOML version", "why_tests_cant": "all date-times with all separators, fractions and offsets", "anchors": ["crates/tombi-formatter/src/format/value/date_time.rs: impl_date_time_format", "crates/tombi-document-tree/src/support/chrono.rs: make_datetime_str"]}
{"id": "C57", "title": "Integers in JSON schemas are read exactly", "statement": "An integer written in a JSON schema (bounds, lengths, enum values) is the integer tombi compares with.", "quantifier": "every integer literal", "why_tests_cant": "all integers", "anchors": ["crates/tombi-json/src/parser.rs: parse_value", "crates/tombi-json-value/src/number.rs: Number::from_f64"]}
{"id": "C58", "title": "Validation errors are reported exactly when the document violates the schema", "statement": "If every rule is switched on, a document that violates its schema gets at least one diagnostic other than a lint (empty key, deprecation, strict-mode key, comment directive), and a document that satisfies it gets none.", "quantifier": "every schema, document, strictness, severity configuration without switched-off rules, and set of comment directives", "why_tests_cant": "the failure flag and the list of diagnostics are computed separately through nested merges, filters and error ranking", "anchors": ["crates/tombi-validator/src/validate.rs", "crates/tombi-validator/src/validate/*.rs", "crates/tombi-validator/src/invalid.rs", "crates/tombi-validator/src/diagnostic.rs"]}
{"id": "C59", "title": "Paths in messages are shown literally", "statement": "A path shown in a Markdown message (hover, completion) is one Markdown code span whose content is the printed path, whatever characters its keys contain.", "quantifier": "every path", "why_tests_cant": "keys can hold any number of backticks in a row, which end a code span", "anchors": ["crates/tombi-accessor/src/schema_accessor.rs: Display for MarkdownSchemaAccessors"]}
{"id": "C60", "title": "The most specific override applies", "statement": "Of several overrides or sub-schemas whose patterns match a path, the one with the most exact items applies, and the first of them if there are several; none applies when none matches.", "quantifier": "every list of overrides, every path", "why_tests_cant": "all patterns x paths; order of the entries", "anchors": ["crates/tombi-schema-store/src/schema.rs: pattern_match_score, find_best_pattern_match", "crates/tombi-schema-store/src/schema/schema_context.rs: get_subschema"]}
{"id": "C61", "title": "Remote schemas are loaded from the network only when needed", "statement": "Loading a remote schema offline asks the network for nothing; online it asks at most once, and only if the cache has no copy that is not older than the time to live and parses; an answer is the result and is saved, so that a second load within the time to live needs no request and gives the same schema; without an answer a stale copy is used unless caching is switched off; with caching switched off the result does not depend on the cache", "quantifier": "every history of the cache, clock value, option, network behaviour and URI", "why_tests_cant": "Needs every state the cache can be in, combined with every failure of the network", "anchors": ["crates/tombi-schema-store/src/store.rs: fetch_schema_value, load_catalog_from_uri, load_json_schema_from_cache, load_json_schema_from_cache_ignoring_ttl", "crates/tombi-cache/src/lib.rs: read_from_cache, save_to_cache"]}
{"id": "C62", "title": "No change after an opening is lost", "statement": "Once the handlers of didOpen and of the didChange notifications after it have finished, the stored document has the text of the last change.", "quantifier": "every interleaving of the handler of the opening with any number of change handlers", "why_tests_cant": "schedules; the handlers suspend in the middle of their work", "anchors": ["crates/tombi-lsp/src/handler/did_open.rs: handle_did_open", "crates/tombi-lsp/src/handler/did_change.rs: handle_did_change", "crates/tombi-lsp/src/document.rs"]}
{"id": "C63", "title": "Reported diagnostics belong to the document", "statement": "Diagnostics reported with a document version are those of the text of that version; diagnostics requested after all changes have finished are those of the present text under its TOML version.", "quantifier": "every interleaving of change, close, open and diagnostics handlers", "why_tests_cant": "schedules and histories of the cache of diagnostics", "anchors": ["crates/tombi-lsp/src/diagnostic.rs", "crates/tombi-lsp/src/handler/diagnostic.rs: handle_diagnostic"]}
{"id": "C64", "title": "Missing and forbidden commas are reported exactly", "statement": "Of the values of an array (key-values of an inline table) exactly those that are not the last and have no comma are reported; in tables and at the top level every comma after a key-value is reported.", "quantifier": "every list of values with and without commas", "why_tests_cant": "all lists", "anchors": ["crates/tombi-linter/src/rule/missing_comma.rs", "crates/tombi-linter/src/rule/trailing_comma.rs"]}
{"id": "C65", "title": "Formatting keeps every token and every comment, in order", "statement": "The formatted document has the tokens and comments of the source, in the same order, none lost and none added except commas, line breaks and blanks; keys, strings, date-times and comments are rewritten only in their configured style; and no comment is written in front of something else on the same line.", "quantifier": "every document without syntax errors, every setting of the formatter", "why_tests_cant": "the formatter decides layout by nesting, comments, widths and settings: the combinations are unbounded", "anchors": ["crates/tombi-formatter/src/formatter.rs Formatter::format", "crates/tombi-formatter/src/format/root.rs", "crates/tombi-formatter/src/format/table.rs", "crates/tombi-formatter/src/format/key_value.rs", "crates/tombi-formatter/src/format/value/array.rs", "crates/tombi-formatter/src/format/value/inline_table.rs", "crates/tombi-formatter/src/format/comment.rs"]}
{"id": "C66", "title": "Formatting twice is formatting once", "statement": "Formatting the formatted text gives the same text.", "quantifier": "every document without syntax errors, every setting of the formatter", "why_tests_cant": "holds for every document or not at all; the tests of the project only reformat their own samples", "anchors": ["crates/tombi-formatter/src/formatter.rs Formatter::format", "crates/tombi-formatter/src/formatter.rs key_value_equal_alignment_width", "crates/tombi-formatter/src/format/root.rs"]}
{"id": "C67", "title": "Spaces and tabs between tokens do not matter", "statement": "Two documents whose tokens are the same apart from spaces and tabs (two touching brackets counting as a mark of their own) are both accepted or both rejected, and when they are accepted their syntax trees are the same apart from blanks.", "quantifier": "every pair of documents that the lexer accepts", "why_tests_cant": "a parser that looks at raw tokens in one place and at significant ones in another goes wrong only on particular spacings, in unbounded combinations", "anchors": ["crates/tombi-parser/src/parse.rs", "crates/tombi-parser/src/parser.rs Parser::at, nth_at", "crates/tombi-parser/src/lib.rs parse"]}
{"id": "C68", "title": "What the formatter writes is read back as the same document", "statement": "Formatting a document without syntax errors gives a document without syntax errors whose tokens and comments are those of the source, in the same order, each in its configured style: no two tokens are glued together, no literal is cut, no comment takes in what follows, and no key or value moves into another table.", "quantifier": "every document without syntax errors, every setting of the formatter", "why_tests_cant": "whether two tokens written side by side are read as those two tokens depends on every pair of tokens and on every layout decision", "anchors": ["crates/tombi-formatter/src/formatter.rs Formatter::format", "crates/tombi-formatter/src/format/key.rs", "crates/tombi-formatter/src/format/value.rs", "crates/tombi-lexer/src/lib.rs lex", "crates/tombi-parser/src/lib.rs parse"]}
{"id": "C69", "title": "Every TOML document is parsed without syntax errors, as what it says", "statement": "A text of the TOML grammar is parsed without panic and without syntax errors, and the syntax tree holds the pairs, tables, arrays of tables, dotted keys, arrays, inline tables and literals of the grammar, in order and nested as in the text, however blanks, newlines and comments are laid out.", "quantifier": "every text of the TOML grammar with arrays and inline tables nested at most 128 deep", "why_tests_cant": "the grammar derives infinitely many documents: every sequence of lines, every nesting, every layout of blanks and comments between any two tokens", "anchors": ["crates/tombi-lexer/src/lib.rs lex", "crates/tombi-parser/src/lib.rs parse", "crates/tombi-parser/src/parse/array.rs", "crates/tombi-parser/src/parse/inline_table.rs", "crates/tombi-parser/src/parse/table.rs", "crates/tombi-parser/src/parse/key_value.rs", "crates/tombi-parser/src/parse/comma.rs", "crates/tombi-ast/src/node.rs"]}
{"id": "C70", "title": "Reading a TOML text gives the document it stands for", "statement": "A TOML text with a valid document is read without errors, and the result holds exactly the tables, arrays and scalars the text stands for, each at its place with its value: strings with their escapes decoded, numbers with their value, dates and times with their parts. A text that is read without errors is not misread, a text that defines something twice or holds a literal without a meaning (a number out of range, a date that does not exist, a bad escape) is rejected, and two texts that stand for the same document give the same result.", "quantifier": "every text of the TOML grammar, every layout of blanks and comments, every way to write keys and values", "why_tests_cant": "the chain of lexer, parser, literals and tree building must be right for every document; a wrong value in one place of one document is silent", "anchors": ["rust/serde_tombi/src/de.rs Deserializer::from_str_async, try_to_document", "crates/tombi-document-tree/src/root.rs", "crates/tombi-document-tree/src/key.rs", "crates/tombi-document-tree/src/value.rs", "crates/tombi-document-tree/src/support/comment.rs"]}
{"id": "C71", "title": "Formatting never changes the data", "statement": "If a TOML text is read without errors, then so is its formatted text, and the result is the same: the same tables, arrays and values at the same places. Formatting does not make a wrong document right either: if the formatted text is read, the text it came from is read as the same.", "quantifier": "every TOML text, every layout of blanks and comments, every quote style, date delimiter and other setting, every version of TOML", "why_tests_cant": "a formatter that changes a value in one document in a million corrupts data silently; the claim joins lexer, parser, formatter, literals and tree building over all documents", "anchors": ["crates/tombi-formatter/src/formatter.rs", "crates/tombi-formatter/src/format.rs", "crates/tombi-formatter/src/format/key.rs", "crates/tombi-formatter/src/format/value/string.rs", "crates/tombi-formatter/src/format/value/date_time.rs", "rust/serde_tombi/src/de.rs"]}
{"id": "C72", "title": "Serialising a value and reading it back gives the value", "statement": "Serialising a record (to_string) succeeds with a TOML text, and reading that text gives exactly the tables, arrays and scalars of the record, each at its place with its value; fields that are None are absent.", "quantifier": "every value that serde can hand to the serializer: every nesting of records, sequences, options and scalars, every field name and every text", "why_tests_cant": "the writer chooses between headers, arrays of tables, inline tables and plain pairs by the shape of the value and of its neighbours; the shapes, names and texts are unbounded, and a wrong choice loses data silently", "anchors": ["rust/serde_tombi/src/ser.rs to_string, ValueSerializer, SerializeArray, SerializeTable, force_inline", "rust/serde_tombi/src/document.rs ToTomlString", "crates/tombi-document/src/key.rs Key", "crates/tombi-document/src/value/table.rs Table::insert"]}
{"id": "C73", "title": "Formatting files never damages them", "statement": "`tombi format` changes only the files it is asked to format; with --check it changes none. When it ends without failures each of them holds its formatted text, or its old text when that has syntax errors. At any moment, also when the program is killed or an operation fails, a file holds its old text or its formatted text. The run always ends.", "quantifier": "every set of files and contents, every interleaving of the tasks (one for each file, on several threads), every crash point, every failing operation", "why_tests_cant": "there are as many schedules and crash points as steps of all tasks; a test sees one of them", "anchors": ["rust/tombi-cli/src/app/command/format.rs inner_run, format_file, FormatFile"]}
{"id": "C74", "title": "The exit code says whether there is something to report", "statement": "`tombi format` exits with 0 exactly when every file could be opened and formatted, with --check exactly when every file is formatted already; `tombi lint` exactly when no file has an error (with --error-on-warnings: nothing at all). Every file found is counted once. After a `tombi format` with exit code 0, `tombi format --check` exits with 0.", "quantifier": "every set of files and contents, every interleaving and every order in which the tasks end", "why_tests_cant": "the result depends on the schedule of the tasks; and the last claim needs formatting to be idempotent for every document", "anchors": ["rust/tombi-cli/src/app/command/format.rs run, inner_run, format_file", "rust/tombi-cli/src/app/command/lint.rs run, inner_run, lint_file"]}
{"id": "C75", "title": "tombi takes the files that the settings and the arguments ask for", "statement": "Without arguments tombi takes exactly the files whose path matches the include patterns and no exclude pattern, and the language server looks at the same files; a file that is excluded is never formatted; a file that is named is taken; an argument that names nothing is reported; each file is taken once.", "quantifier": "every directory tree, every settings, every list of arguments", "why_tests_cant": "file trees, patterns and arguments are unbounded, and the command line and the server have separate code for them", "anchors": ["crates/tombi-glob/src/file_search.rs FileSearch::new, search_pattern_matched_paths, is_excluded", "crates/tombi-glob/src/walk_dir.rs WalkDir::walk", "crates/tombi-glob/src/pattern.rs", "crates/tombi-glob/src/file_match.rs matches_file_patterns"]}
{"id": "C76", "title": "An override of the settings applies to the files it names", "statement": "The first override whose patterns match a file decides: it switches formatting (linting) off, or its rules replace those of the project, and all other rules stay as the project has them; without one the settings of the project apply. The result does not depend on how the path is written.", "quantifier": "every settings, every list of overrides, every path", "why_tests_cant": "settings, patterns and paths are unbounded; a rule that both places set needs its own test for each rule", "anchors": ["crates/tombi-glob/src/lib.rs get_format_options, get_lint_options, matches_override_files", "crates/tombi-config/src/lib.rs merge_format, merge_lint", "crates/tombi-config/src/format.rs FormatRules::merge", "crates/tombi-config/src/lint.rs LintRules::merge"]}
{"id": "C77", "title": "Formatting the standard input never loses the text", "statement": "`tombi format -` writes the formatted text, or the input itself when it cannot or may not be formatted; its exit code says whether the input had syntax errors, with --check whether it is formatted.", "quantifier": "every input, every settings", "why_tests_cant": "the input is unbounded, and an editor replaces its text by the output, so that any other output is a loss", "anchors": ["rust/tombi-cli/src/app/command/format.rs inner_run, format_stdin"]}
{"id": "C78", "title": "A TOML text is read into a Rust value as it says", "statement": "Reading a text as a Rust type (from_str) gives the value of that type that the document says: numbers in the range of the type, texts, date-times, optional fields that are None exactly when the key is absent, sequences with all their elements in order, maps with exactly the keys of the table, the variant of an enum that is named. A text whose document is not a value of the type is refused, reading never panics, and a value that was serialised is read back as the same value.", "quantifier": "every text, every type made of numbers, texts, date-times, options, newtypes, sequences, tuples, maps, structs and enums, nested in any way, every value of it", "why_tests_cant": "types, documents and values are unbounded and nest; a field that is taken from the wrong place or dropped is silent", "anchors": ["rust/serde_tombi/src/de.rs Deserializer::from_str_async", "crates/tombi-document/src/lib.rs Document", "crates/tombi-document/src/value.rs Value", "crates/tombi-document/src/value/array.rs Array", "crates/tombi-document/src/value/table.rs Table", "crates/tombi-date-time/src/private/date_time.rs"]}
{"id": "C79", "title": "Formatting with a schema ends with a result", "statement": "Formatting a document without syntax errors ends with a formatted text, whatever the schema says and whether or not the document fits it: it does not panic and it does not run forever.", "quantifier": "every document, every schema (every answer of the schema store and the validator)", "why_tests_cant": "schemas refer to each other and nest without bound, and documents need not fit them", "anchors": ["crates/tombi-ast-editor/src/edit.rs edit_recursive", "crates/tombi-ast-editor/src/edit/root.rs", "crates/tombi-ast-editor/src/edit/table.rs", "crates/tombi-ast-editor/src/edit/array.rs", "crates/tombi-ast-editor/src/edit/inline_table.rs", "crates/tombi-ast-editor/src/rule/table_keys_order.rs", "crates/tombi-schema-store/src/schema/schema_context.rs get_subschema"]}
{"id": "C80", "title": "Keys are in the order of the schema after formatting", "statement": "After a document is formatted with a schema, the key-values of every table (before the first header, below a header, and in an inline table) for which the schema says an order (ascending, descending, version sort, or the order of the schema) are in this order, group by group; an order that a comment directive of the table says goes before one of the settings for its place, and this before the one of the schema; the schema of a table is the one that is found by following the properties, patterns, additional properties and items of the schema along the path of the table.", "quantifier": "every source without syntax errors, every schema, every order, every nesting of tables", "why_tests_cant": "tables nest without bound, several sections can be about the same table, keys can be dotted, and the editor follows schema and document in parallel; a wrong step anywhere sorts a table by the order of another one", "anchors": ["crates/tombi-ast-editor/src/edit.rs edit_recursive", "crates/tombi-ast-editor/src/edit/root.rs", "crates/tombi-ast-editor/src/edit/table.rs", "crates/tombi-ast-editor/src/edit/inline_table.rs", "crates/tombi-ast-editor/src/edit/key_value.rs", "crates/tombi-ast-editor/src/rule/table_keys_order.rs get_sorted_accessors", "crates/tombi-ast-editor/src/rule/inline_table_keys_order.rs"]}
{"id": "C81", "title": "Formatting moves items only within their table or array, and not where sorting is turned off", "statement": "When a source is formatted with any schema, every item of a table or array of the source is an item of the same table or array of the result. Where a comment directive or the settings turn sorting off for a table or an array, its items stay in the order of the source; where a comment directive turns it off for the document, the headers stay in their order.", "quantifier": "every source without syntax errors, every schema, every setting and comment directive, every nesting", "why_tests_cant": "directives stand at any level and apply to that level only, while tables around and inside are sorted; a test can only try a few of the combinations", "anchors": ["crates/tombi-ast-editor/src/edit/root.rs", "crates/tombi-ast-editor/src/edit/table.rs", "crates/tombi-ast-editor/src/edit/array.rs", "crates/tombi-ast-editor/src/edit/inline_table.rs", "crates/tombi-ast-editor/src/rule/root_table_keys_order.rs", "crates/tombi-ast-editor/src/rule/table_keys_order.rs", "crates/tombi-ast-editor/src/rule/array_values_order.rs"]}
{"id": "C82", "title": "Completion offers exactly the allowed values where a schema names finitely many", "statement": "When a schema allows only finitely many values (by const, enum and their combination with allOf, anyOf, oneOf and not), completion of a value offers a TOML literal for every boolean, number and text that the schema allows, and nothing else.", "quantifier": "every JSON schema at every depth of nesting, every value", "why_tests_cant": "the values are combined and filtered at every level of a nested schema, by tests that are written a second time apart from the validator; a test can only try a few schemas", "anchors": ["crates/tombi-schema-store/src/schema/semantic_schema.rs", "crates/tombi-lsp/src/completion.rs", "crates/tombi-lsp/src/completion/schema_completion.rs", "crates/tombi-json-value/src/lib.rs"]}
{"id": "C83", "title": "A document is reported exactly if it does not follow the schema file", "statement": "For the JSON Schema file that a user writes (keywords, references to definitions, dialect), validating a document reports a violation exactly if the document is not valid against the file.", "quantifier": "every schema file, at every depth and with every combination of keywords, and every document", "why_tests_cant": "the file is read by a parser per type of schema that looks at some keywords and not at others, references are resolved in a second step and the verdict is computed in a third; the combinations of keywords, places, references and values are unbounded", "anchors": ["crates/tombi-schema-store/src/schema/document_schema.rs", "crates/tombi-schema-store/src/schema/referable_schema.rs", "crates/tombi-schema-store/src/schema/value_schema.rs", "crates/tombi-schema-store/src/schema/table_schema.rs", "crates/tombi-schema-store/src/schema/array_schema.rs", "crates/tombi-schema-store/src/json_schema_dialect.rs", "crates/tombi-validator/src/validate.rs"]}
{"id": "C84", "title": "The editor features look at the tokens under the cursor", "statement": "At every position of a document the server finds the token under the cursor, or the two tokens that meet there, and no others; the syntax nodes it looks at are exactly those that contain one of these tokens, each once, and none after one that contains it. The lookup does not panic.", "quantifier": "every syntax tree, every position, every encoding of the editor", "why_tests_cant": "trees nest without bound, a position can be at the border of any number of nested nodes, nodes can be empty, and columns are counted in graphemes, code units or characters", "anchors": ["crates/tombi-rg-tree/src/cursor.rs: SyntaxNode::token_at_position, SyntaxElement::token_at_position", "crates/tombi-rg-tree/src/green/node.rs: GreenNode::new", "crates/tombi-ast/src/algo.rs: ancestors_at_position", "crates/tombi-text/src/features/lsp/from_lsp.rs: Position"]}
{"id": "C85", "title": "A reference by a JSON pointer finds the schema it names", "statement": "A `$ref` `#...` finds the value of the schema file that the JSON pointer selects by RFC 6901: names with `~0` and `~1`, indices into arrays, all characters as they are or percent-encoded; where the pointer selects nothing, it finds nothing.", "quantifier": "every schema file, every JSON pointer, every way to write it as the fragment of a URI", "why_tests_cant": "names are arbitrary texts whose escapes overlap (`~01`), every character can be written in several ways, and pointers have any length", "anchors": ["crates/tombi-schema-store/src/schema/referable_schema.rs: resolve_json_pointer_node, percent_decode"]}
{"id": "C86", "title": "The format keyword accepts exactly the texts of the format", "statement": "A string is accepted by `format: date`, `time`, `time-local`, `date-time`, `date-time-local` exactly if it is the `full-date`, `full-time`, `partial-time`, `date-time` (with or without offset) of RFC 3339, by `json-pointer` exactly if it is a JSON pointer of RFC 6901, and by `uri-reference` if it is a relative reference of RFC 3986.", "quantifier": "every text", "why_tests_cant": "the lengths of months depend on the year, fractions of seconds, pointers and references have any length, and every character of the text matters", "anchors": ["crates/tombi-validator/src/validate/format/date.rs: validate_format", "crates/tombi-validator/src/validate/format/time.rs: validate_format, parse_time_components", "crates/tombi-validator/src/validate/format/local_time.rs", "crates/tombi-validator/src/validate/format/date_time.rs", "crates/tombi-validator/src/validate/format/local_date_time.rs", "crates/tombi-validator/src/validate/format/json_pointer.rs", "crates/tombi-validator/src/validate/format/uri_reference.rs"]}
{"id": "C87", "title": "The outline shows the document, and every symbol contains its children", "statement": "The outline the language server sends for a document (textDocument/documentSymbol) has one symbol for each key-value of the document, in order, with its name and kind, and below it those of its elements and key-values; every symbol lies inside the document and contains the ranges of its children.", "quantifier": "every document (every syntax tree whose nodes contain their parts)", "why_tests_cant": "sections of a table are scattered over the document and their ranges are joined in the order of the merges, at any depth and for any number of dotted keys and arrays of tables", "anchors": ["crates/tombi-lsp/src/handler/document_symbol.rs: create_symbols, symbols_for_value", "crates/tombi-document-tree/src/value/table.rs: symbol_range, merge, new_parent_table, new_parent_key", "crates/tombi-document-tree/src/value/array.rs: merge, push, extend"]}
{"id": "C88", "title": "The nearest configuration applies, on the command line and in the editor", "statement": "For a directory, tombi uses the configuration file of the nearest directory upwards that has a valid one (.tombi.toml before tombi.toml before .config/tombi.toml before [tool.tombi] in pyproject.toml), else that of the user, else that of the system, else the default; the language server uses for a document what the command line uses in its directory, and without a file the settings the editor sent last, after any history of requests, changes of files and settings.", "quantifier": "every file system, directory, and history of requests, changes of files, updates and settings", "why_tests_cant": "directories may be nested to any depth, any of the files may be missing, unreadable or invalid, and what the server keeps depends on the whole history", "anchors": ["rust/serde_tombi/src/config.rs: load_with_path_and_level, try_from_path, get_user_or_system_tombi_config_path_and_level", "crates/tombi-lsp/src/config_manager.rs: ConfigManager::new, config_schema_store_for_file, update_config_with_path, update_editor_config, default_config_schema_store", "crates/tombi-lsp/src/handler/update_config.rs: handle_update_config"]}
{"id": "C89", "title": "The refactorings of the editor keep the data", "statement": "Where the editor offers to convert dotted keys to an inline table, or an inline table to dotted keys, the text with the edits of that action applied is read without errors, and has the same tables, arrays and values at the same places as the text before.", "quantifier": "every document text, every key under the cursor, and both actions", "why_tests_cant": "the edits are made of the ranges of a merged tree, and any spacing, comments, other keys of the document and names of keys may stand around them", "anchors": ["crates/tombi-lsp/src/code_action.rs: dot_keys_to_inline_table_code_action, inline_table_to_dot_keys_code_action", "crates/tombi-lsp/src/completion.rs: get_completion_keys_with_context", "crates/tombi-document-tree/src/lib.rs: dig_accessors"]}
{"id": "C90", "title": "Highlighting covers the elements of the document", "statement": "When an editor asks for the semantic tokens of a document, the server answers without failing, and an editor that reads the answer by the protocol shows each highlighted element exactly over its text, with the type it has in the legend; the directive of a comment is shown as a keyword inside the comment.", "quantifier": "every document text, every sequence of elements to highlight, and every encoding of positions", "why_tests_cant": "the tokens are differences of positions of which each depends on all before it, in units that depend on the characters of the line and on the encoding", "anchors": ["crates/tombi-lsp/src/semantic_tokens/builder.rs: add_token, add_comment_directive, delta_line_and_start, token_length", "crates/tombi-lsp/src/semantic_tokens/token_type.rs: TokenType, SUPPORTED_TOKEN_TYPES", "crates/tombi-lsp/src/semantic_tokens/{root,table,array_or_table,key_value,key,value,array,inline_table}.rs: append_semantic_tokens", "crates/tombi-ast/src/impls/comment.rs: get_tombi_value_directive, get_document_schema_directive"]}
