# Formal model of tombi — design

## Layout

* `lean/Verif/Basic/*`   – shared vocabulary (characters, UTF-8 length, ranges of chars, regexes).
* `lean/Verif/Model/*`   – the model: one Lean definition per Rust function, each with a comment
  citing the file and lines in /repo and naming the simplifications.
* `lean/Verif/Spec/*`    – small independent specifications (TOML grammar productions, escape
  semantics, calendar, JSON, ...), written without reference to the model.
* `lean/Verif/Proofs/*`  – helper lemmas.
* `lean/Verif/Props/*`   – the property theorems (named `Cnn_...`), each with an `example`
  showing that a concrete non-trivial case meets the hypotheses.

Texts are `List Char` (Lean's `Char` is exactly a Unicode scalar value, like Rust's `char`).
Byte offsets are computed with `Char.utf8Size`. Machine integers: offsets/lines/columns (`u32`) and
`usize` are `Nat` unless a definition says otherwise (texts shorter than 4 GiB); `i64` values are
`Int` with explicit range checks; `u8/u32/u64` bit packing is modelled with bounded `Nat`/`BitVec`.
Loops become structural recursion, folds, or well-founded recursion whose termination proof is part
of the result. A Rust panic is an explicit error value in the model.

## Trusted base

* Lean 4.33.0 kernel. Axioms: at most `propext`, `Classical.choice`, `Quot.sound`
  (listed per theorem in the generated section at the end of this file).
* The transcription of Rust code to Lean definitions (checked by reading; every definition cites
  its source lines).
* External crates are not modelled; where their behaviour matters it is stated here:
  `regex`/`fancy_regex` (the literal patterns of the lexer are transcribed to a regex AST with
  textbook semantics), `unicode-segmentation` (a parameter wherever graphemes are used),
  `chrono`, `serde`, `tokio` (async functions are modelled by their sequential effect, except C42
  where the interleaving is modelled), `std` sort (`slice::sort_by` = stable sort),
  `IndexMap` (insertion-ordered association list), file system and clock (parameters).

## Plan per property

| id | what is modelled | how it is proved |
|---|---|---|
| C01 | `Cursor`, `advance_token` and all sub-lexers, `tokenize`, `lex` | cursor invariant `source = consumed ++ rest`, every sub-lexer is a chain of bumps; induction on remaining text |
| C02 | same, with positions | same invariant extended by `pos = position after consumed` |
| C03 | same, `push_result_token` | induction over the token loop |
| C04 | same + regex AST | derivative matcher proved equal to the language semantics; per-kind invariant of `advance_token`; deviations proved by witness |
| C05 | string sub-lexers | induction on the string body; deviation (`"""\\"""`) proved by witness |
| C06 | trivia sub-lexers | characterisation of `eat_while` |
| C07 | parser events, `finish`, `Output`, `build_green_tree` | token-stream invariant of the parser (tokens emitted = tokens consumed) + tree text lemma; the leading-blank float key defect is proved by witness |
| C08 | all of `parse/*.rs` | model functions are total by well-founded recursion on the number of remaining tokens; panics are explicit and proved unreachable |
| C09 | depth counter | invariant over the mutual recursion |
| C10 | events/markers | invariant over the mutual recursion |
| C11 | `Output` packing | bit-level lemma + list induction |
| C12 | `TokenSet` | bit lemma |
| C13–C16 | `tombi-toml-text` decoders | simulation between the decoder loop and a recursive spec decoder |
| C17, C18 | key rendering/validation | case analysis + C14 |
| C19 | integer parsing | positional-value induction |
| C20, C21 | date-time parser/printer | digit lemmas, calendar spec |
| C22 | chunk iterator + comparison | lexicographic order on chunk lists is a preorder |
| C23, C24 | text crate | arithmetic |
| C25 | `LineIndex`, lsp conversions | induction over lines; graphemes as parameter |
| C26–C29 | document-tree `insert`/`merge` and conversions | induction over histories; abstract path map |
| C30–C32 | ast-editor sorting rules | permutation / sortedness lemmas |
| C33, C34 | formatter string/comment functions | case analysis |
| C35–C37 | JSON lexer/parser | as for TOML |
| C38, C39, C58 | the validator on booleans, integers, strings, arrays and tables against a schema graph, with lint, directive and severity configuration as parameters | JSON Schema meaning as a fixed point over the graph (`Meaning`, shown to exist and to be unique); induction on a measure that decreases from a schema and a value to the schemas inside and the values that they are applied to, so that recursive schemas are covered; separate invariants for the failure flag and for the diagnostics |
| C40 | accessor print/parse | list induction |
| C41 | cache with explicit file map and clock | invariants over histories |
| C42 | small-step interleaving model of didChange handlers | inductive invariant |
| C43 | lint rules | list lemmas |
| C44 | joint bit vector | induction over the token loop |
| C45 | `advance_token` on valid scalars | forward execution of the sub-lexers on the TOML grammar |
| C46 | `try_from_float` | normal form of the float token's text; deviation (`0E1`) proved by witness |
| C47 | `make_datetime_str`, `try_new_*` | reduction to C21 through the shape of the token |
| C49, C50 | same as C22 | chunking of a concatenation; injectivity of decimal notation; deviation for numbers of 2^64 or more proved by witness |
| C51 | `compute_text_edits`, `position_at_offset` | induction over lines; prefix/suffix lemmas |
| C52 | lexer positions composed with the editor conversion | C02 + C25; deviation (combining accent) proved by witness |
| C53 | same as C26–C29; `Spec/Valid.lean` states validity on the syntax | induction over the sections with an invariant on what is at each place of the tree; two deviations proved by witness |
| C54 | `get_header_accessors` | induction over the sections; deviation proved by witness |
| C55 | sorting of sections and key-values, with the meaning of documents from C27 | sorting keeps sections that depend on each other in order; deviation proved by witness |
| C48 | the `From<chrono::DateTime<FixedOffset>>` impl | arithmetic modulo 2^16 |
| C33, C34, C56 | quote styles, keys, comment texts, date-time delimiter of the formatter | decoders agree on texts without backslash; comment text split into marker, blanks, words, trail |
| C35, C36, C37, C57 | JSON lexer and parser for schemas | pieces of text per token, grammar of RFC 8259 as inductive relation parameterised by a dialect; soundness by induction on fuel, completeness by induction on the text |
| C59 | Display of MarkdownSchemaAccessors | run-length bound by induction on the text, CommonMark rule as specification |
| C60 | pattern_match_score, find_best_pattern_match, get_subschema | loop invariant over the items seen so far |
| C61 | `Model/Cache.lean`: the branch of `fetch_schema_value` for `http(s)` with the network as a parameter. By cases on the cache, from the characterisation of reads in C41. |
| C62 | the same machines with the two critical sections of didOpen | prefix lemma: after the insertion the run is one of C42 |
| C63 | the machines for diagnostics and the cache of results | invariant over schedules: every result in flight or in the cache is that of some text of its version |
| C64 | the loops over values and commas | induction on the list |
| C65 | The whole printing half of the formatter is modelled: documents as the accessors of the syntax tree show them (`Doc`), settings, and the buffer as a list of pieces. Induction over documents: the pieces that are neither layout nor commas are the words of the document, and a comment is always followed by a line break. Induction over the parser on significant tokens (C67): the document that the accessors show has every token of the tree, and it is well formed (`Doc.WF`: blank lines between groups, no empty groups, bounded nesting). |
| C66 | By C68 the printed text is read back as the normalised document (`NormD`); induction over documents then shows that printing the normalised document prints the same pieces. Witnesses by evaluation for the settings where it is false. |
| C67 | A parser on the significant tokens alone (`Proofs/View.lean`), which fails at the first error, is shown to agree with the modelled parser: same verdict, same tree with blanks put in. It sees blanks only between two brackets of a kind, so equal tokens give equal verdicts and trees. |
| C68 | Four steps. The written words, side by side with the layout between them, are lexed as those words (`Proofs/Relex*.lean`, `WordLex.lean`, from the lexer theorems C03 – C06); no two words that would merge are adjacent (`FormatAdj.lean`, induction over the printer); the parser on significant tokens reads the printed layout as the normalised document (`FormatRead*.lean`); and the words of the normalised document are the written words (`NormWords.lean`). |
| C69 | The TOML grammar is written as a relation between documents and texts (`Spec/TomlDocument.lean`, after toml.abnf). Induction over it shows that the text is lexed into the tokens of the document (`Proofs/FileLex.lean`), and that the parser on significant tokens accepts these tokens and builds the document (`FileRead*.lean`); the lemmas of C07 and C67 carry this over to the parser (`FileParse.lean`). That no two documents share a text is a corollary. Witnesses by evaluation where it is false. |
| C70 | The values of keys and literals are added to the grammar of C69 (`Spec/ReadDocument.lean`: `FileMeans`); with `docNodes` (C27) this is what a text stands for. C69 gives the syntax tree, the theorems on literals (C11–C16, C45–C47) the values, an induction over the tree the keys and values handed to the tree builder (`Proofs/ReadTree.lean`), another one that no comment is rejected (`ReadComments.lean`), and C53 and C27 the result. |
| C71 | `formatted_again` (C68) gives the relation `NormD` between the document of the source and the document that is read back. An induction over it shows that keys, values and comments of the second are those of the first as they are written (`Proofs/FormatMeans.lean`); C33 and C56 say that the written words have the same values. `Proofs/FileSource.lean` shows that every text of the grammar of C69 is a source that C66, C68 and C71 speak of (`C66_toml_partial`, `C68_toml_partial`). |
| C72 | The serializer (`Model/Serialize.lean`) makes a document of tables, arrays and scalars with kinds; the writer makes it a text, which is formatted (`formatSource`). Induction over the value: what it becomes is written on one line (`Inl`) or as tables (`Tab`), with the nodes of the value (`Proofs/SerializeData.lean`). Induction over the document: its text is a text of the TOML grammar (`Proofs/SerializeText.lean`), its tables follow each other validly (`Proofs/SerializeFlat.lean`) and have the nodes of the document (`Proofs/SerializeNodes.lean`). C71 does the rest. |
| C73 | `tombi format` is a transition system (`Model/Cli.lean`): the contents of the files and one task for each file, which reads, empties and writes in steps of any size; an operation may fail. A schedule is a list of (task, event). Invariant by induction over the schedule: what a file holds at each stage of its task (`Proofs/Cli.lean`, `Good`). Termination by a rank that each turn of a task decreases. Witnesses for what is false. |
| C74 | From the invariant of C73: the results of the tasks, joined in any order; the counters by induction over the entries. `--check` after a run: C73 for the contents and C66 for idempotence. |
| C75 | `FileSearch::new` and `matches_file_patterns` as functions of a file system and `glob_match` (`Model/Select.lean`); membership by cases. |
| C76 | `get_format_options` and `merge` as functions; induction over the list of overrides. |
| C77 | `format_stdin` as a function of the formatter; by cases. |
| C78 | The document tree becomes a document and is handed to the `Deserialize` of a type (`Model/Deserialize.lean`, types `Ty`, values `Val`). `Holds` says on the nodes of a document which value of a type it says (`Spec/Deserialize.lean`); `C78_exact` by induction over the type. An error-free tree has no incomplete values (`Proofs/DocComplete.lean`), so that `unreachable!` is not reached. With C70 for valid texts, with C72 for the round trip. |
| C79 | The search for the schema of a value is a recursion with a bound (`followSchema`); running out of the bound and the `unreachable!` are error values. Induction over the bound with a rank of schemas; induction over documents for the rest. Without a schema the bound is the number of keys. The formatter without a schema is this model with `noSchema`; `formatToml_gathered` says that it moves only commas and comments when what belongs together stands together (`Spec/Gathered.lean`), by induction over `getSorted` and over groups; C65, C66, C68 and C71 for the whole formatter rest on it. |
| C65, C68 with sorting | `Spec/Rearranged.lean` says what it means that words are put in another order. `Proofs/EditorRe.lean` has a relation between bodies that only swaps whole items, moves comments between their place and the comma, and adds or removes commas; `EditorReGroups`, `EditorReSort` and `EditorReDoc` show that every step of `sortTree` is in it, for any schema, settings and directives. The relation keeps well-formed documents, tokens, and names before dots, so that C68 follows from the theorem on the printer. |
| C71 (sorted) | What the editor does to the bodies of tables is a sequence of swaps of key-values (`Re`, see C65); swaps keep what key-values denote and their validity (`Proofs/SameData.lean`). The sorted sections denote the same (C55); that they stay a valid document that tombi accepts follows from three facts about `getSorted`: an element of an array of tables stays before what is below it (`getSorted_before`), a section stays behind those whose path it extends (`getSorted_prefix`), and sections with the same first key stand together (`getSorted_together`). |
| C80 | The editor with a schema (`sortTree`) is modelled. A small specification says which schema is for which path (`schemaAt`) and when a table is in order. Proof: the accessors that the editor follows are the path of the table in the document tree (`DocPlaces`), the schema it reaches is that at the path, and the sort of a group gives a list in order; then induction over the tables, and the printed document is read back (C68). |
| C81 | The editor with a schema (`sortTree`) is modelled. A small specification says what may move where (`SortedNode`, `SortedBody`, `SortedSection`). Proof: induction over values and bodies; the order of a group whose sorting is turned off is the one of the source. |
| C82 | JSON schemas are modelled as JSON values; `sem` builds what completion keeps of them, `finite` the candidates, `insertText` the text. A small specification says keyword by keyword what a schema allows (`Allows`). Proof: mutual induction over schemas that the test of a literal is that specification, and that the candidates are all literals that pass; texts are TOML literals for the values. Schemas with keywords that are not tested are excluded, with witnesses. |
| C09 (deep values) | a source with more than 128 brackets or braces open at some place has syntax errors | Spec/Depth counts bracket tokens; the words of an accepted document are those of a tree of depth at most 128 (DocRead), each word is one token of the source (ViewKeeps), so no prefix of the tokens opens more than 128 |
| C83 | The schema file is a JSON value; `readNode` reads the keywords of one object as the constructors of the typed schemas do, `resolve` follows references to definitions, and the result is the environment of the validator model of C39. A separate specification says what each keyword of the file means (`Holds`, by its name) and that `H` is the meaning of a file (`Meaning`: booleans, references, keywords). Proof: reading a position gives a schema that holds exactly if the keywords hold (both directions, keyword by keyword), so C39 and C58 apply. |
| C84 | green trees with the positions of their elements, the search for the touched children, the merge of the two chains of ancestors | induction over the tree with the tokens laid out on a line of positions; interleavings for the merge; deviation (position after the end) by witness |
| C85 | `resolve_json_pointer_node` and `percent_decode` on the JSON values of C83 | the decoder undoes every percent-encoding and the two replacements undo the escapes, by induction; deviations by witness |
| C86 | the validators of `validate/format/*.rs` that do not just call another crate | equivalence with the grammars of RFC 3339 and RFC 6901 and inclusion of RFC 3986's relative references, by inversion and induction over the text; deviations by witness |
| C87 | document trees with their `symbol_range`s, and the symbols made of them | an invariant of ranges kept by every merge, by mutual induction; erasing the ranges gives the document tree of C26 to C29; the exception by witness |
| C88 | the search for configuration files, and the configurations the language server keeps | induction over the directories upwards, equivalence with the nearest place that holds a configuration; invariants over histories of events; deviations by witness |
| C89 | the two code actions on the document tree with ranges, and their edits on the text | the value found in the merged tree is that of the key-value (induction over keys and merges); the edited text is a text of the grammar; both documents have the same nodes and are valid; deviations by witness |
| C90 | the builder of semantic tokens over positions, the line index and the encoding; the directives of comments; the traversal of the syntax tree | the elements found are in order, are in the tree with their kinds, and are all there, by mutual induction over the tree; the differences are decoded by the rules of the protocol; induction over the elements; the length of a token by the code units of the lines before its ends; deviations by witness |

Nothing is planned as inexpressible; properties that turn out false of the code get a witness
theorem for the negation and a `_partial` theorem for the part that holds.

## What is modelled, and what is not

| crate | modelled | not modelled / simplified |
|---|---|---|
| tombi-lexer | `Cursor`, all sub-lexers, `tokenize`, `lex`, joint bits | the compiled regexes are an AST with textbook semantics; grapheme segmentation is a parameter |
| tombi-parser | `TokenSet`, `Parser`, `Marker`, all of `parse/*.rs`, `Output`, `finish` | `debug_assert!` counts as a panic |
| tombi-rg-tree / syntax tree | `build_green_tree` | the node cache is assumed transparent (it only shares equal nodes) |
| tombi-toml-text | everything | `char::is_whitespace`/`is_control` transcribed as tables |
| tombi-ast literals | `try_from_{decimal,hexadecimal,octal,binary,float}` | `i64::from_str_radix` transcribed; `f64::from_str` is its documented syntax, the rounding to binary is not modelled |
| tombi-date-time | all parsers and printers, conversion from `chrono::DateTime<FixedOffset>` | `serde` impls, the other `chrono` conversions |
| tombi-document-tree/support/chrono.rs | everything | a node is represented by the text of its token |
| tombi-version-sort | everything | iterator state is the remaining text; `usize` has 64 bits |
| tombi-text | `Span`, `Position`, `RelativePosition`, `Range`, `LineIndex`, editor conversions | the segmentation into graphemes is a parameter, assumed to satisfy `Spec.Segments`; spans compared as on a 64-bit little-endian machine |
| tombi-lsp/handler/formatting.rs | `compute_text_edits`, `position_at_offset` | the formatter's result is a parameter |
| tombi-document-tree | `Table::{merge, insert}`, `Array::merge`, the conversion of key-values, arrays, inline tables, headers and the root | keys are decoded already, ranges and comment directives are left out, literals are an arbitrary type |
| tombi-ast | `parent_array_of_tables_keys` | |
| tombi-ast-editor/rule/table_keys_order.rs, root_table_keys_order.rs | `get_sorted_accessors`, `sort_targets`, `sort_table_targets`, `get_table_keys_order`, the collection of sections | schemas, validation and configuration are parameters (`SchemaWorld`); `sort_by` is a stable insertion sort; only the order is modelled, not the syntax tree edit |
| tombi-ast/lib.rs | `get_header_accessors` | |
| tombi-ast-editor/rule/{array_values_order, array_comma_trailing_comment, inline_table_keys_order, inline_table_comma_trailing_comment}.rs, edit/{array, inline_table}.rs, editor.rs | one group of values: values, commas, trailing comments; the changes and their application; the orders | the inside of values; leading comments of values (they move with the value); the sort key of a value is a parameter; `splice_children` on a list |
* `Model/Format.lean`: `requote_string` and the quote styles, `format_comment`, keys, date-time delimiter. The content of a directive comment is formatted by a parameter `fmt`; the number of alignment spaces is a parameter.
| `Model/Json.lean` | `tombi-json-lexer/src/lib.rs`, `lexed.rs`; `tombi-json/src/parser.rs`, `node.rs` (`Display`, `From<ValueNode>`); `tombi-json-value/src/number.rs` for integers | floats keep their text: `f64` conversion of fractions and exponents is not modelled; for integers it is modelled as round to nearest even |
| `Model/Validate.lean`, `Model/ValidateTypes.lean` | `tombi-validator/src/validate.rs`, `validate/{integer, boolean, string, array, table, one_of, any_of, all_of, not_schema, if_then_else}.rs`, `invalid.rs`; `tombi-schema-store/src/schema/semantic_schema.rs` (type tests and typed views), `referable_schema.rs` | floats, date-times, `format`, `unevaluated*`, `dependencies` and siblings of `$ref` are left out; regular expressions, grapheme counts and the float test of `multipleOf` are parameters; severities, directives, evaluated keys and match evidence are arbitrary parameters; schema loading (resolving `$ref`, locks, re-entrancy of the collection) is assumed to succeed |
| `tombi-accessor/src/*.rs` | `Model/Accessor.lean` | Display and parse of all three kinds of paths, Markdown; usize is 64 bits; comparison impls are not modelled |
| `tombi-schema-store/src/schema.rs`, `schema_context.rs` | `Model/Accessor.lean` | choice of overrides and sub-schemas by pattern; loading of the schema is not modelled |
| `Model/Cache.lean` | `tombi-cache/src/lib.rs` (`get_cache_file_path`, `read_from_cache`, `save_to_cache`, `refresh_cache`), `options.rs`, `store.rs` (`fetch_schema_value` for remote URIs, `load_json_schema_from_cache*`) | the file system is a map from paths to nodes with modification times; permissions, links and disk errors other than file/directory conflicts are not modelled; UTF-8, JSON and HTTP are parameters |
| `Model/Lsp.lean` | `tombi-lsp/src/handler/{did_open,did_change,did_save,did_close,did_change_watched_files,diagnostic}.rs`, `diagnostic.rs`, `workspace_diagnostic.rs`, `workspace_diagnostic/cache.rs`, `document.rs` | one document; a handler is a machine whose steps are the critical sections between awaits, a schedule says who steps next; resolving the TOML version and linting are functions of text and version (configuration and schemas do not change) |
| `Model/LintOrder.lean` | `tombi-linter/src/rule/{tables_out_of_order,dotted_keys_out_of_order,missing_comma,trailing_comma}.rs`, `tombi-ast/src/impls/key.rs` (`try_to_raw_text`) | the lists the rules iterate over are given; the iteration order of the hash map is a parameter; severities and directives are not modelled |
| `crates/tombi-formatter/src/formatter.rs`, `format/{root,table,array_of_table,key_value,key,comment,value}.rs`, `format/value/*.rs`, `types/*.rs` | `Model/Formatter.lean` | whole printer; indentation depth is a number instead of a `u8`; a panic in a leaf leaves its text |
| `crates/tombi-ast/src` (accessors used by the formatter: comments, groups, commas, headers, keys, blank lines) | `Model/AstDoc.lean` | from syntax trees to documents; a missing part, a panic in the code, drops the item |
| `rust/serde_tombi/src/de.rs:90-103`, `:181-197`, `crates/tombi-document-tree/src` (values of keys and literals, check of comments) | `Model/ReadDocument.lean` | from texts to document trees; the version is given, errors are not ordered, a float is the text handed to `f64::from_str`, the conversion to `tombi_document::Document` is left out |
| `Model/Serialize.lean` | `rust/serde_tombi/src/ser.rs`, `document.rs`, `crates/tombi-document/src` key, table, array | What serde hands over is a tree; floats are the texts that `Display` gives; accessors in errors are left out; map keys are texts. |
| tombi-ast-editor/editor.rs, edit.rs, edit/*.rs, rule/*.rs (Model/Editor.lean, Model/EditorSort.lean); Formatter::format of tombi-formatter/src/formatter.rs | `Editor::edit`, `edit_recursive`, the comma rules on whole documents, the group for document directives, the new order of groups of key-values, of inline tables, arrays and sections, with and without a schema | the schema store, the validator, settings and comment directives are given as functions (`EditWorld`); the changes are applied to the document of Model/AstDoc.lean instead of the syntax tree; what stands between two sections is not moved with them; `format.disabled` directives |
| tombi-cli/src/app/command/{format,lint}.rs (Model/Cli.lean) | `run`, `inner_run`, `format_file`, `format_stdin`, `lint_file`: tasks, steps on files, counters, exit codes | the formatter and the linter are parameters (C74 also with `formatToml`); characters for bytes; files are opened before the first step; no other writers; no links; printing of diagnostics and diffs is left out; `tokio::fs::File::write_all` may return before the text is written, as tokio documents |
| tombi-glob/src/*.rs, tombi-config/src/{lib,format,lint,overrides,files,level}.rs (Model/Select.lean) | `FileSearch::new`, `WalkDir::walk`, `matches_file_patterns`, `get_format_options`, `get_lint_options`, `merge` | the walker of the crate `ignore`, `fast_glob::glob_match`, `canonicalize` and `std::path` are parameters; rules are a map from names to values |
| serde_tombi/src/de.rs, tombi-document/src/{lib,key,value,value/array,value/table}.rs, `Deserialize` of tombi-date-time (Model/Deserialize.lean) | `from_str_async`, `IntoDocument`, `Deserializer for &Value`, `&Document`, `MapAccess`, `SeqAccess`, `EnumAccess` | which methods `serde` calls for `std` types and for `derive` is written down from its documentation and trusted; attributes, `f32`, 128-bit numbers, bytes, unit, tuple and struct variants are left out; floats are texts; error messages are left out |
| `Spec/SchemaOrder.lean`, `Proofs/DocPlaces.lean`, `Proofs/EditorOrdered*.lean`, `Props/EditorOrder.lean` | C80: the order of keys after formatting with a schema; no new model. |
| `Spec/SortingOff.lean`, `Proofs/EditorKept.lean`, `Props/EditorOff.lean` | C81: items stay in their table or array, and in order where sorting is turned off; no new model. |
| `Model/Offers.lean`, `Spec/Offers.lean`, `Proofs/Offers.lean`, `Proofs/OffersText.lean`, `Props/Offers.lean` | C82: `SemanticSchema` for literals (`from_value_node`, `accepts_literal`, `finite_literal_candidates`), the text of a completion. Not modelled: references, date-time formats, `const`/`enum` of dates, the LSP items around the text. |
| `Model/SchemaFile.lean`, `Spec/SchemaFile.lean`, `Proofs/SchemaPlaces.lean`, `SchemaNode`, `SchemaMeans`, `SchemaHolds`, `SchemaObject`, `SchemaCovered`, `SchemaFile`, `SchemaMeaning`, `SchemaCheck`, `Props/SchemaFile.lean` | C83: dialect, keywords of every typed schema, definitions, references. Not modelled: JSON pointers to other places than definitions, anchors and `$dynamicRef`, references to other files, `format`, titles and the other annotations. Regular expressions, the division of floats and the number of graphemes are parameters. |
| crates/tombi-rg-tree/src/cursor.rs (`token_at_position`), green/node.rs (relative positions), crates/tombi-ast/src/algo.rs (`ancestors_at_position`) | Model/Locate | `itertools::kmerge_by` and `dedup_by` are modelled from their published algorithm (trusted); nodes are compared by place; `debug_assert!`s are left out |
| `Model/Pointer.lean` | `referable_schema.rs:1146-1221` (`resolve_json_pointer_node`, `percent_decode`) | `String::from_utf8_lossy` is a parameter; `usize` has 64 bits; how the found value is read as a schema is C83 |
| `Model/Formats.lean` | `crates/tombi-validator/src/validate/format/{date,time,local_time,date_time,local_date_time,json_pointer,uri_reference}.rs` | slices of bytes are lists of characters (the text is ASCII there); `Uri::from_str` is a parameter; the formats `email`, `hostname`, `uri`, `uuid`, `ipv4`, `ipv6`, `regex` only call other crates and are not modelled |
| `Model/Outline.lean` | `handler/document_symbol.rs` (`create_symbols`, `symbols_for_value`), `symbol_range` in `value/table.rs` and `value/array.rs`, on the functions of `Model/DocumentTree.lean` | the request, `into_lsp` of the ranges (C52); which nodes of the syntax tree a range comes from is a field of the syntax tree, with nodes containing their parts as a hypothesis |
| `Model/ConfigFile.lean` | `rust/serde_tombi/src/config.rs` (`try_from_path`, `load_with_path_and_level`, `get_user_or_system_tombi_config_path_and_level`), `crates/tombi-lsp/src/config_manager.rs` (`new`, `config_schema_store_for_file`, `update_config_with_path`, `update_editor_config`, `default_config_schema_store`), `handler/update_config.rs` | reading a configuration from a text (parameter), symbolic links and relative paths, macOS and Windows, schema stores, interleavings of requests |
| `Model/Refactor.lean` | `crates/tombi-lsp/src/code_action.rs` (`dot_keys_to_inline_table_code_action`, `inline_table_to_dot_keys_code_action`), `completion.rs` (`get_completion_keys_with_context`), `dig_accessors` | keys below arrays, comments in inline tables (parameter), `into_lsp` of ranges (C52), the request handler |
| `Model/SemanticTokens.lean` | `crates/tombi-lsp/src/semantic_tokens/builder.rs`, `token_type.rs`, `comment.rs`, the comments of `root.rs`, and the ranges of directives of `tombi-ast/src/impls/comment.rs` | reading the URI of a schema directive; the traversal is in `Model/SemanticTree.lean` |
| `Model/SemanticTree.lean` | `append_semantic_tokens` of `crates/tombi-lsp/src/semantic_tokens/{root,table,array_or_table,key_value,key,value,array,inline_table,comment}.rs` over the syntax tree | comments with document and schema directives are treated like other comments; a literal node without its token, a panic in the code, gives nothing |

## Findings: properties that are false of the code

Each is a theorem `Cnn_..._false` with a concrete witness.

* C04: `1:2`, `0b0|1`, `+0x1F`, `1._`, `12:30.5` are taken for single number/time tokens (regex typos).
* C05: `"""\\\\"""` (a body ending in an escaped backslash) is rejected.
* C07/C08: ` 1.2 = 3` (a dotted float key after leading blanks) panics the parser.
* C13: `\u+041` is accepted; a line-ending backslash is accepted in single-line strings; any Unicode white space
  is swallowed after a line-ending backslash.
* C14/C17: NUL, BEL, VT (and ESC for TOML 1.0) are rendered with escapes TOML does not have.
* C16: all leading line feeds of a multi-line string are dropped, a leading CRLF is kept.
* C17: `${...}` keys are rendered without quotes.
* C18: the empty text and texts with dots are accepted as bare keys.
* C46: `0E1` is rejected for a leading zero.
* C47: `2024-01-01T12:30.5` is accepted from TOML 1.1 on.
* C48: converting from chrono takes seconds for minutes (+09:00 becomes +540:00) and drops fractions.
* C49/C50: `v99999999999999999999` sorts before `v1` and equals other large numbers (overflow ends the comparison).
* C23: an empty span orders before itself (`Span::ordering`).
* C52: token columns count characters but are converted as graphemes; `"é" = 1` with a combining accent is off by one.
* C27/C29: in `[[a]] [[a.b]] [[a]] [a.b.c]` the place `a[1].b` becomes an array instead of a table.
* C28: `[a.b.c]` then `b = {x = 1}` (or `b.x = 1`, then `[a.b]`) in `[a]` is accepted; so is `[[a.b]]` after a table `a.b`.
* C53: `[[a]] [[b]] [a.c]` is rejected, and so is `[[a]] [[a.b]] [[a]] [a.b.c] [a.b]`.
* C30: sorting `[[a]] [[a.b]] [[c]] [[a]] [[a.b]] [[a.b]]` with a schema for `a` and `b` drops the last section.
* C54: the third section of `[[a]] [[b]] [[a]]` gets the accessors `a[0]`; the last one of
  `[[a]] [[a.b]] [[a.b]] [[a]] [[a.b]]` gets `a[1].b[2]`.
* C55: sorting `[[a]]` 1, `[[a]]` 2, `[[b]]`, `[[a]]` 3 by key gives `a` the order 1, 3, 2.
* C32: sorting `[2 # b ⏎ , 1]` loses the comment; sorting a group of values that is not the last one and lacks its last comma
  (`2,` `1 # c`) prints the comment twice.
* C34: `# tombi: a=1` followed by a wide space (U+3000, or any non-ASCII white space) cannot be parsed as a directive, so it is only trimmed; formatting the result once more gives `# tombi: a = 1`: formatting is not idempotent (`C34_false`).
* C37: `Display` of JSON values prints keys without quotes and texts without escapes, so its output
  is not JSON. A lone carriage return (white space in RFC 8259) is rejected; `[1,]` and `00.5` are
  accepted; an invalid token also swallows the character after it.
* C57: integers above `2^53` in a JSON schema are rounded to a float first, `2^63` is read as
  `2^63 - 1`, and numbers beyond `2^1024` are read as zero.
* C38: under `type: number` an integer is compared after rounding to `f64` (`maximum: 2^53` accepts
  `2^53 + 1`); `multipleOf: 0` panics, as does `-1` on the smallest `i64`.
* C39: a warning of the only matching `oneOf` member hides a failed `not` beside it, so the outcome
  depends on severities; `anyOf` of `null` members accepts everything; `anyOf` or `allOf` beside
  `oneOf` and keywords beside an applicator in a member are skipped; `if` is ignored for scalars; a
  `$ref` to an untyped `enum` accepts every other type; `number` with `allOf` `integer` rejects
  integers as a member; recursion through `anyOf` is checked only one level deep, and valid values are rejected
  there (`C39_recursive_any_of_false`, `C39_recursive_rejected_false`: the guard against circles is kept while the values inside are validated).
| C40 | `SchemaAccessor::parse` does not read the quoted keys that its own Display writes (`"a b"` becomes a key with quotes), drops empty keys; `PatternAccessor::parse` splits a key `${a.b}` | `C40_roundtrip_false` |
| C41 | different URIs share a cache file: query and port are ignored, `https://h/a`, `https://h/a/` and `https://h/a/__index__.json` are one file (`C41_different_files_false`) |
| C41 | a crash during `save_to_cache` leaves a part of the answer that later reads serve as fresh until the time to live has passed (`C41_crash_false`); the schema loader recovers when the part does not parse |
| C41 | after `https://h/a.json` has been saved, `https://h/a.json/b` can never be saved (`C41_save_conflict`) |
| C42 | a change without a text drops the pending TOML version of the change before it (`C42_no_text_false`); with equal versions the earlier text may win (`C42_same_version_false`) |
| C62 | a didChange that arrives while didOpen is still resolving the TOML version is lost: the document is inserted only afterwards, with the old text (`C62_change_lost_false`) |
| C63 | the cache of diagnostics is keyed by the document version only: stale results stay when the TOML version is refined concurrently (`C63_current_false`), when a document is closed and reopened with the same version (`C63_reopened_false`), and for files that are not open (`C63_file_false`) |
| C43 | tables-out-of-order compares the source text of first keys: `[a] [b] ["\u0061"]` is not reported, `[a] ["\u0061"] [a]` is (`C43_tables_by_value_false`) |
| C66 | With `key-value-equals-sign-alignment` the width is measured on the keys as written in the source (`a . b`), so the first formatting pads too much and the second one repairs it. |
| C66 | With `table-blank-lines = 0` a dangling comment above a table becomes its leading comment after formatting; the next formatting removes the blank line above it. |
| C66 | With a line width, a comment behind the comma of a top-level key-value (`a = [1, 2, 3], # c`) is not counted when the comma is dropped in the first round, but counted in the second, which then breaks the array. |
| C68 | `+1 . +2 = 3` has no syntax errors; it is formatted as `+1.+2 = 3`, which has. |
| C69 | `2024-01-01x = 1` (a bare key that begins with a date) is valid TOML but has 4 syntax errors. |
| C69 | `a = [1⏎# c⏎⏎, 2]` (a comment followed by a blank line before a comma) is valid TOML but has 2 syntax errors. |
| C69 | ` 1.2 = 3` (blanks, then a bare key of digits before a dot, at the start of the document) is valid TOML, but the parser panics (`C69_digit_key_false`). |
| C70 | `a = 0E1` is rejected (C46); `a = '''⏎⏎x'''` is read as `x` instead of `⏎x` (C16). |
| C70 | Comments in a group of their own (between blank lines) are not checked: a control character there, which TOML forbids, is accepted (`# \u0001` between two blank lines), while in the comments of values and headers it is an error. |
| C71 | A comment that ends with a form feed makes a document unreadable; the formatter drops the form feed, so the formatted document is readable. |
| C72 | `to_string` drops a field with an empty sequence, and writes a sequence of sequences as empty tables `[[a]]` (`ser.rs:403-440`: a new array is an array of tables until a scalar comes). |
| C72 | `to_string` does not escape texts: a backslash is read back as an escape, a quotation mark panics (`document.rs:48-50`, `ser.rs:149-153`). |
| C72 | `to_string` writes a float without fraction as an integer, and a `u64` over `i64::MAX` as a negative number. |
| C72 | `to_string` writes a key with a dot as a dotted key, and panics for an empty key or a key with a blank (`key.rs:48-62` quotes a key only if it holds a quotation mark). |
| C72 | `to_string` drops the name of an enum variant with a payload (`ser.rs:317-330`, `:353-391`). |
| C72 | `to_string` panics for a table inside an element of an array of tables (`document.rs:204-226` writes the header behind `key = `), and for a sequence with a table before a scalar. |
* C66: a comment that ends with a control character, e.g. a form feed, makes the document wrong, so the editor does not touch it; the printer then drops the character. Formatting again edits the document: `C66_edited_false`.
* Missing commas between values of arrays and inline tables are accepted by the parser; the formatter adds them (`edit_formatted`), the linter reports them (C64).
| C73 | `tombi format` empties a file and then writes it (`format.rs:375-378`, `:491-499`): when it is killed in between, the text is lost. |
| C73 | `tombi format` does not flush the file (`format.rs:508-513`): an error of a write that tokio does later is lost, and the file is reported as formatted. |
| C73 | A file that is given twice (`tombi format a.toml a.toml`, or a file and its directory) is formatted by two tasks at once (`file_search.rs:63-107` does not remove duplicates); one may read while the other one has emptied the file, and keys are lost without an error. |
| C75 | `tombi format dir` compares exclude patterns with the path from `dir`, not from the project (`file_search.rs:94-97`, `walk_dir.rs:98-113`): an excluded file is formatted. |
| C75 | `files.include = []`: the command line takes all files (`walk_dir.rs:102`), the language server none (`file_match.rs:29-39`). |
| C76 | A rule in `[[overrides]]` has no effect when the project sets the rule too: `FormatRules::merge` and `LintRules::merge` are `self.x.or(override.x)` (`format.rs:306-351`, `lint.rs:76-87`), called on the rules of the project (`lib.rs:169`, `:188`). |
| C77 | `tombi format - --stdin-filename x` writes nothing, with exit code 0, when an override switches formatting off for `x` (`format.rs:161-169`). |
| C78 | A TOML date-time is never read into `OffsetDateTime`, `LocalDateTime`, `LocalDate` or `LocalTime`: their `Deserialize` asks for a string (`private/date_time.rs:319-342`), and `deserialize_str` refuses a date-time (`value.rs:318`). What `to_string` writes for them is not read back. |
| C78 | `[1, 2, 3]` is read into `(i64, i64)` without an error (`value.rs:310`, `:395`: the elements that are left are not looked at), and an array is taken for a struct. |
| C78 | An `Option`, a newtype or an enum as the type of the whole document is refused for every text (`lib.rs:88-103` hands a map to every type). |
| C65 | Without a schema and without settings, `tombi format` reorders keys and sections that share a first key but do not stand together (`table_keys_order.rs:101-399` groups them before it looks for an order). |
| C65 | Without a schema, `k = { a.x = 1, # 1⏎b = 2 # 2⏎, a.y = 3 # 3⏎}` loses the comment `# 2` when it is formatted: the inline table is regrouped, and the last key-value loses its comma with the comment that was moved behind it. |
| C71 | Without a schema, formatting `[[a]] n=1 [[a]] n=2 [[b]] [[a]] n=3` gives the elements in the order 1, 3, 2: the sections after another array of tables count from zero again (C55), and the groups are paired with the elements by position (`table_keys_order.rs:332-387`). |
| C79 | A document with an array of tables where the schema says that there is an object makes the formatter panic (`edit.rs:132-134`, `unreachable!`). |
| C79 | `edit_recursive` follows a subschema, or the first schema of `anyOf`, `oneOf`, `allOf` that accepts the value, without a check for circles. A subschema whose root is an `anyOf` with a `$ref` to another file leads in a circle: the other file is another `schema_uri`, so that `get_subschema` gives the subschema again. |
| C66 | The groups of an inline table (parted by a blank line) are sorted one by one, but an inline table is printed on one line when it has no line breaks that count (`tombi-ast/src/impls/inline_table.rs:91-99` ignores blank lines), so the second run sorts the merged group: `t = { a.x = 1, b = 2,\n\n a.y = 3 }` is not stable (`C66_merged_false`). |
* C82: completion tests `type`, `const`, `enum`, bounds and lengths but not `pattern` or `if`/`then`/`else`: for `{"enum": ["a", "b"], "pattern": "^a$"}` it offers `"b"`, and below `not` an untested keyword hides every value (`C82_pattern_false`, `C82_not_false`).
* C82: an offered text is escaped only for quotation marks: for `{"const": "C:\\new"}` completion inserts `"C:\new"`, which holds a line break (`C82_backslash_false`). Lengths are counted in characters, those of the validator in graphemes.
* C83: a bound that is a fraction is dropped where the type is integer: `{"type": "integer", "minimum": 1.5}` accepts 1 (`C83_fraction_false`).
* C83: the names of definitions are compared without decoding: `#/definitions/a~1b` takes the definition `a~1b` and not `a/b` (`C83_escaped_name_false`).
* C83: a property whose schema has `x-taplo: {hidden: true}` counts as not declared and is reported with `additionalProperties: false` (`C83_hidden_false`).
* C83: a definition that is a reference to itself is followed for ever (`C83_reference_cycle_false`).
* C83: a schema that is recursive through `anyOf` reports valid documents: with `e` a text or an array of `e`, the document `e = [["x"]]` is reported (`C83_recursive_rejected_false`).
* **C84**: a position after the end of the document makes `token_at_position` panic (`unwrap` of no child, `cursor.rs:955`), `C84_after_end_false`. The position of a completion request is not clamped to the document (`from_lsp.rs:9-25`), so an editor whose text is ahead of the server's can cause it.
* **C85**: empty segments of a JSON pointer are dropped (`referable_schema.rs:1161`), so `#/definitions//a` finds `definitions.a` and not the member `a` of the definition `""` (`C85_empty_name_false`). Indices are read by `usize::from_str`, so `#/oneOf/+0` and `#/oneOf/00` find an element, though RFC 6901 forbids both (`C85_loose_index_false`).
* **C86**: the fields of dates and times are read by `parse::<u32>` (`date.rs:12-18`, `time.rs:23-29`), which allows a sign: `+202-01-01` is a valid `date` and `12:+3:00++5:00` a valid `time` (`C86_sign_false`). `format: uri-reference` rejects `?a?b`, though RFC 3986 allows a question mark in queries and fragments (`C86_question_false`), and accepts `1a:b`, which is neither a URI nor a relative reference (`C86_colon_false`).
* **C87**: `Array::merge` lets the last element of an array of tables grow when a section `[a.b]` continues it, but not the array (`array.rs:137-148`); in `[[a]]`, `x = 1`, `[a.b]`, `y = 2` the symbol `[0]` reaches beyond the symbol `a` that contains it (`C87_outline_false`). Editors expect parents to contain their children.
* **C88**: a configuration of the user or the system that cannot be parsed ends in `unreachable!` (`config.rs:183-193`): with an invalid `~/.config/tombi/config.toml` every command panics where no project configuration is found, though invalid project files are skipped with a warning (`C88_user_false`). The language server keeps the configuration file of a document from its first request on (`config_manager.rs:119-120`): a `tombi.toml` made later in a nearer directory, or the removal of the file, does not count for the document, not even after `tombi/updateConfig` (`C88_editor_false`).
* **C89**: the action *Convert Dotted Keys to Inline Table* writes the inner key without quotation marks (`code_action.rs:74`, `key.value`): `a.'b.c' = 1` becomes `a = { b.c = 1 }`, other data (`C89_quoted_false`). It looks at the merged tree, not at the key-value: with `a.b.c = 1` and `a.b.d = 2`, the action on `b` closes the brace after the second line (`C89_shared_false`). *Convert Inline Table to Dotted Keys* of `a = { b.c = 1, b.d = 2 }` writes `a.b.c = 1, b.d = 2` (`C89_comma_false`).
* **C90**: the width of the white space before `tombi:` in a comment is counted in bytes and used as columns (`tombi-ast/src/impls/comment.rs:127`): after an ideographic space, the wrong part of the comment is shown as keyword (`C90_directive_false`). The columns of a schema directive are 1 to 8 wherever the comment begins (`comment.rs:24-30`): after one space, `#:schem` is the keyword (`C90_schema_false`).
* **C90**: in an array or inline table that is not closed, the comment after the bracket or the last value is found both as the comment of the bracket and as the last token of the node, and is highlighted twice; when it has a directive, the second copy is shown after the end of the line (`C90_unclosed_false`).

## Axioms per theorem

Generated from `#print axioms` (namespace `Tombi`).

* **propext, Classical.choice, Quot.sound**: `C01_lex_lossless`, `C02_token_positions`, `C03_lex_terminates`, `C03_errors_are_invalid_tokens`, `C06_comment`, `C06_line_break`, `C06_whitespace`, `C06_line_ending`, `C44_joint_bits`, `C04_boolean`, `C04_local_date`, `C04_integer_dec_partial`, `C04_integer_hex_partial`, `C04_integer_oct_partial`, `C04_integer_bin_partial`, `C04_float_partial`, `C04_local_time_partial`, `C04_local_date_time_partial`, `C04_offset_date_time_partial`, `C04_integer_false`, `C04_float_false`, `C04_time_false`, `C05_basic_string`, `C05_literal_string`, `C05_multi_line_literal_string`, `C05_multi_line_basic_string_partial`, `C05_multi_line_basic_string_false`, `C05_basic_string_sound`, `C05_literal_string_sound`, `C05_single_line_string_holds_newline`, `C45_integer`, `C45_float_boolean`, `C45_date_time`, `C45_first_token`, `C07_parse_lossless_partial`, `C07_parse_lossless_false`, `C08_parse_total_partial`, `C08_parse_errors_partial`, `C08_parse_total_false`, `C09_nesting_bounded_partial`, `C09_deep_reported_partial`, `C10_events_well_nested_partial`, `C12_token_set`, `C13_basic_string_exact`, `C13_basic_string_partial`, `C13_multi_line_basic_string_partial`, `C13_valid_accepted_partial`, `C13_meaning_unique`, `C13_basic_string_false`, `C14_roundtrip_partial`, `C14_never_misread`, `C14_one_token`, `C15_literal_string`, `C15_multi_line_literal_string`, `C16_first_newline_false`, `C16_rendered_multi_line_literal`, `C17_key_roundtrip_partial`, `C17_key_roundtrip_false`, `C18_bare_key_exact`, `C18_bare_key_partial`, `C18_bare_key_false`, `C19_decimal`, `C19_hexadecimal`, `C19_octal`, `C19_binary`, `C46_float_partial`, `C46_float_false`, `C20_local_date`, `C20_local_time`, `C20_local_date_time`, `C20_offset_date_time`, `C20_offset_parsed`, `C20_full_day_offset`, `C21_local_date`, `C21_local_time`, `C21_local_date_time`, `C21_offset_date_time`, `C47_local_date`, `C47_local_time`, `C47_local_date_time_partial`, `C47_offset_date_time_partial`, `C47_false`, `C48_false`, `C22_version_sort`, `C49_numbers_by_value_partial`, `C49_numbers_by_value_false`, `C50_equal_texts_partial`, `C50_hyphens`, `C50_equal_texts_false`, `C23_contains_span`, `C23_intersect`, `C23_cover`, `C23_cover_offset`, `C23_checked_add`, `C23_checked_sub`, `C23_ordering_partial`, `C23_range_intersects`, `C24_add_sub`, `C25_to_editor`, `C25_from_editor`, `C25_from_editor_any`, `C25_round_trip`, `C51_formatting_edit`, `C51_edit_unique`, `C52_token_ranges_partial`, `C52_token_ranges_false`, `C26_distinct_keys`, `C26_keys_keep_their_place`, `C26_keys_keep_their_place_kvs`, `C26_merge_order`, `C27_tree_partial`, `C27_one_meaning_partial`, `C27_false`, `C28_assignments_partial`, `C28_headers_partial`, `C28_values_not_reopened_partial`, `C28_tables_not_assigned_partial`, `C28_dotted_tables_partial`, `C28_false`, `C29_array_of_tables_partial`, `C29_sub_tables_partial`, `C53_accepted_partial`, `C53_without_arrays`, `C53_accepted_false`, `C53_array_of_other_element_false`, `C30_keys_permuted`, `C30_no_schema_permuted`, `C30_nothing_new`, `C30_sections_permuted_partial`, `C30_result`, `C30_false`, `C31_sorted`, `C31_table_sorted`, `C31_others_stay`, `C31_groups_sorted`, `C31_schema_order`, `C31_explicit_order`, `C54_header_accessors_partial`, `C54_false`, `C55_sections_partial`, `C55_sections_no_schema_partial`, `C55_false`, `C32_unsorted`, `C32_values`, `C32_comments_partial`, `C32_other_comments`, `C32_order_all`, `C32_order_all_some`, `C32_order_groups`, `C32_inline_table`, `C32_false`, `C33_one_token`, `C34_words_kept`, `C34_idempotent_partial`, `C34_one_line`, `C34_directives_kept`, `C56_local_date_time`, `C56_offset_date_time`, `Json.C35_json_lex_lossless`, `Json.C35_json_token_positions`, `Json.C35_json_lex_errors`, `Json.C36_json_string_exact`, `Json.C36_json_key`, `Json.C36_json_string_writable`, `Json.C37_json_exact`, `Json.C37_json_total`, `Json.C37_json_ranges`, `Json.C37_json_unambiguous`, `Json.C37_json_reads_standard_partial`, `Json.C37_json_roundtrip`, `Json.C37_json_too_deep`, `Json.C37_json_duplicate_keys`, `Json.C37_json_display_false`, `Json.C37_json_accepts_more_false`, `Json.C57_json_integer_exact_partial`, `Json.C57_json_integer_exact_false`, `Validate.C38_integer_exact_partial`, `Validate.C38_integer_reports_partial`, `Validate.C39_outcome_is_meaning_partial`, `Validate.C39_meaning_exists_unique`, `Validate.C39_severity_independent_partial`, `Validate.C39_one_of`, `Validate.C39_any_of`, `Validate.C39_recursive_partial`, `Validate.C39_recursive_meaning`, `Validate.C58_reported_iff_invalid_partial`, `Validate.C58_recursive_partial`, `Accessor.C40_pattern_roundtrip_partial`, `Accessor.C40_schema_roundtrip_partial`, `Accessor.C40_document_path_partial`, `Accessor.C40_literal_key`, `Accessor.C59_markdown_code_span`, `Accessor.C59_markdown_one_line_partial`, `Accessor.C60_most_specific`, `Accessor.C60_subschema`, `Accessor.C60_no_subschema`, `Accessor.C60_exact_wins`, `Cache.C41_read_iff`, `Cache.C41_read_own_partial`, `Cache.C41_save_then_read`, `Cache.C41_save_succeeds`, `Cache.C41_save_frame`, `Cache.C61_requests`, `Cache.C61_fresh_copy`, `Cache.C61_stale_copy`, `Cache.C61_second_load`, `Lsp.C42_same_version_false`, `LintOrder.C43_tables`, `LintOrder.C43_dotted_keys`, `LintOrder.C43_dotted_keys_by_value`, `LintOrder.C43_tables_by_value_partial`, `LintOrder.C43_tables_by_value_false`, `Formatter.C65_words_partial`, `Editing.C65_edited_words_partial`, `Editing.C65_sorted_partial`, `Editing.C65_regrouped_partial`, `Editing.C65_refused`, `Editing.C65_order_false`, `Editing.C65_comment_lost_false`, `Formatter.C66_idempotent_partial`, `Reading.C66_toml_partial`, `Editing.C66_edited_partial`, `Editing.C66_edited_false`, `Editing.C66_merged_false`, `Formatter.C66_alignment_false`, `Formatter.C66_table_blank_lines_false`, `Formatter.C66_line_width_false`, `Formatter.C68_reparse_partial`, `Reading.C68_toml_partial`, `Editing.C68_edited_partial`, `Editing.C68_sorted_partial`, `Editing.C68_regrouped_partial`, `Formatter.C68_reparse_false`, `C67_blanks_partial`, `TomlFile.C69_accepted_partial`, `TomlFile.C69_unambiguous`, `TomlFile.C69_date_key_false`, `TomlFile.C69_digit_key_false`, `TomlFile.C69_gap_false`, `TomlFile.C69_string_false`, `Reading.C70_read_partial`, `Reading.C70_not_misread_partial`, `Reading.C70_duplicates_rejected_partial`, `Reading.C70_same_document`, `Reading.C70_accepted_means_partial`, `Reading.C70_meaningless_rejected_partial`, `Reading.C70_float_false`, `Reading.C70_newlines_false`, `Reading.C71_data_kept_partial`, `Reading.C71_errors_kept_partial`, `Reading.C71_errors_kept_false`, `Reading.C71_meaning_kept_partial`, `Editing.C71_edited_data_kept_partial`, `Editing.C71_edited_errors_kept_partial`, `Editing.C71_edited_meaning_kept_partial`, `Editing.C71_sorted_partial`, `Editing.C71_regrouped_partial`, `Editing.C71_regrouped_meaning_partial`, `Editing.C71_swapped_false`, `Serializing.C72_round_trip_partial`, `Serializing.C72_sequences_false`, `Serializing.C72_texts_false`, `Serializing.C72_numbers_false`, `Serializing.C72_keys_false`, `Serializing.C72_variants_false`, `Serializing.C72_panics_false`, `Cli.C73_ends`, `Cli.C73_crash_false`, `Cli.C73_write_error_false`, `Cli.C73_duplicate_false`, `Cli.C74_zero_partial`, `Cli.C74_exit_code_partial`, `Cli.C74_then_check_partial`, `Cli.C74_toml_then_check_partial`, `Cli.C75_project`, `Cli.C75_named`, `Cli.C75_missing`, `Cli.C75_no_root`, `Cli.C75_asked_partial`, `Cli.C75_server_partial`, `Cli.C75_excluded_false`, `Cli.C75_server_false`, `Cli.C75_duplicate_false`, `Cli.C76_first`, `Cli.C76_files`, `Cli.C76_directory`, `Cli.C76_rules_partial`, `Cli.C76_same_file`, `Cli.C76_override_false`, `Deserializing.C78_exact`, `Deserializing.C78_no_panic`, `Deserializing.C78_reads_partial`, `Deserializing.C78_one_value`, `Deserializing.C78_round_trip_partial`, `Deserializing.C78_dates_never`, `Deserializing.C78_dates_false`, `Deserializing.C78_tuples_false`, `Deserializing.C78_structs_false`, `Deserializing.C78_root_false`, `Editing.C79_no_schema`, `Editing.C79_ends_no_schema`, `Editing.C79_ends_partial`, `Editing.C79_panic_false`, `Editing.C79_endless_false`, `Editing.C80_ordered_partial`, `Editing.C80_text_partial`, `Editing.C80_directed_partial`, `Editing.C80_directed_text_partial`, `Editing.C81_off_partial`, `Offer.C82_offers_partial`, `Offer.C82_candidates_partial`, `Offer.C82_pattern_false`, `Offer.C82_not_false`, `Offer.C82_backslash_false`, `SchemaFile.C83_file_outcome_is_meaning_partial`, `SchemaFile.C83_reported_iff_invalid_partial`, `SchemaFile.C83_meaning_exists_unique`, `SchemaFile.C83_fraction_false`, `SchemaFile.C83_escaped_name_false`, `SchemaFile.C83_hidden_false`, `SchemaFile.C83_reference_cycle_false`, `SchemaFile.C83_recursive_rejected_false`, `Locate.C84_token_at_position`, `Locate.C84_enclosing_nodes`, `Locate.C84_cursor_partial`, `Locate.C84_document_partial`, `Pointer.C85_pointer_partial`, `Pointer.C85_empty_name_false`, `Pointer.C85_loose_index_false`, `Formats.C86_date_accepted`, `Formats.C86_date_partial`, `Formats.C86_time_accepted`, `Formats.C86_time_partial`, `Formats.C86_local_time_accepted`, `Formats.C86_local_time_partial`, `Formats.C86_date_time_accepted`, `Formats.C86_date_time_partial`, `Formats.C86_local_date_time_accepted`, `Formats.C86_local_date_time_partial`, `Formats.C86_sign_false`, `Formats.C86_uri_reference_accepted_partial`, `Formats.C86_uri_reference_rejected_partial`, `Formats.C86_question_false`, `Formats.C86_colon_false`, `Outline.C87_shows`, `Outline.C87_outline_partial`, `Outline.C87_nested_partial`, `Outline.C87_outline_false`, `ConfigFile.C88_nearest`, `ConfigFile.C88_common_partial`, `ConfigFile.C88_user_false`, `ConfigFile.C88_editor_partial`, `ConfigFile.C88_settings_partial`, `ConfigFile.C88_editor_false`, `Refactor.C89_to_inline_partial`, `Refactor.C89_to_dotted_partial`, `Refactor.C89_quoted_false`, `Refactor.C89_shared_false`, `Refactor.C89_comma_false`, `SemanticTokens.C90_shown_partial`, `SemanticTokens.C90_place`, `SemanticTokens.C90_directive_partial`, `SemanticTokens.C90_order_partial`, `SemanticTokens.C90_document_partial`, `SemanticTokens.C90_unclosed_false`
* **propext, Quot.sound**: `C11_output_roundtrip`, `C15_single_line_ok`, `C16_first_newline_partial`, `C48_from_chrono_partial`, `C23_equality`, `C24_position_after`, `C24_relative_of`, `C24_assoc`, `C24_sub_add`, `C25_lines`, `C25_lines_unique`, `C55_key_values`, `C33_basic_string`, `C33_literal_string`, `C33_keys`, `C33_idempotent`, `C34_false`, `Json.C36_json_string_unique`, `Json.C37_json_carriage_return_false`, `Json.C57_json_integer_overflow_false`, `Validate.C38_number_rounding_false`, `Validate.C39_all_of`, `Validate.C39_not`, `Validate.C39_if_then_else_partial`, `Validate.C58_failure_is_reported`, `Cache.C41_different_files_partial`, `Cache.C41_crash_false`, `Lsp.C42_converges_partial`, `Lsp.C42_in_order_partial`, `Lsp.C62_open_then_change_partial`, `Lsp.C63_text_of_version`, `Lsp.C63_delete`, `Lsp.C63_current_partial`, `LintOrder.C64_missing_commas`, `LintOrder.C64_no_missing_comma`, `Formatter.C65_comments_end_lines`, `Cli.C73_check_writes_nothing`, `Cli.C73_others_untouched`, `Cli.C73_formatted_partial`, `Cli.C73_crash_partial`, `Cli.C73_untouched`, `Cli.C74_counted`, `Cli.C74_lint`, `Cli.C74_lint_counted`, `Locate.C84_after_end_false`, `SemanticTokens.C90_length`, `SemanticTokens.C90_backwards`, `SemanticTokens.C90_comment`
* **propext**: `C14_roundtrip_false`, `C23_contains`, `C51_no_edit`, `C27_regular_without_arrays`, `C55_without_arrays`, `Validate.C39_severity_independent_false`, `Validate.C39_any_of_null_false`, `Validate.C39_any_of_beside_one_of_false`, `Validate.C39_member_keywords_false`, `Validate.C39_if_ignored_false`, `Validate.C39_ref_enum_false`, `Validate.C39_number_member_false`, `Validate.C39_recursive_any_of_false`, `Validate.C39_recursive_rejected_false`, `Accessor.C40_pattern_injective`, `Accessor.C40_roundtrip_false`, `Accessor.C40_override_target`, `Cache.C41_save_conflict`, `Cache.C61_offline`, `Cache.C61_answer`, `Cache.C61_no_cache`, `Lsp.C42_no_text_false`, `Lsp.C62_change_lost_false`, `Lsp.C63_request`, `Lsp.C63_close`, `Lsp.C63_current_false`, `Lsp.C63_reopened_false`, `Lsp.C63_file_false`, `LintOrder.C64_forbidden_commas`, `Cli.C77_stdin_partial`, `Cli.C77_stdin_check`, `Formats.C86_json_pointer`, `Refactor.C89_place`, `SemanticTokens.C90_directive_false`, `SemanticTokens.C90_schema_false`, `SemanticTokens.C90_kinds`, `SemanticTokens.C90_items`, `SemanticTokens.C90_item_comments`, `SemanticTokens.C90_header_keys`, `SemanticTokens.C90_header_brackets`, `SemanticTokens.C90_section_comments`, `SemanticTokens.C90_root_comments`
* **none**: `C23_ordering_false`, `C24_sub_later`, `Validate.C38_multiple_of_zero_panics_false`, `Cache.C41_different_files_false`, `Cli.C77_disabled_false`
