{
 "claims": [
  {
   "property": "C01",
   "status": "proved",
   "theorems": [
    "Tombi.C01_lex_lossless"
   ],
   "note": "Holds for every text, including NUL characters and any segmentation function."
  },
  {
   "property": "C02",
   "status": "proved",
   "theorems": [
    "Tombi.C02_token_positions"
   ],
   "note": ""
  },
  {
   "property": "C03",
   "status": "proved",
   "theorems": [
    "Tombi.C03_lex_terminates",
    "Tombi.C03_errors_are_invalid_tokens"
   ],
   "note": ""
  },
  {
   "property": "C06",
   "status": "proved",
   "theorems": [
    "Tombi.C06_comment",
    "Tombi.C06_line_break",
    "Tombi.C06_whitespace",
    "Tombi.C06_line_ending"
   ],
   "note": ""
  },
  {
   "property": "C44",
   "status": "proved",
   "theorems": [
    "Tombi.C44_joint_bits"
   ],
   "note": ""
  },
  {
   "property": "C04",
   "status": "partial",
   "theorems": [
    "Tombi.C04_boolean",
    "Tombi.C04_local_date",
    "Tombi.C04_integer_dec_partial",
    "Tombi.C04_integer_hex_partial",
    "Tombi.C04_integer_oct_partial",
    "Tombi.C04_integer_bin_partial",
    "Tombi.C04_float_partial",
    "Tombi.C04_local_time_partial",
    "Tombi.C04_local_date_time_partial",
    "Tombi.C04_offset_date_time_partial",
    "Tombi.C04_integer_false",
    "Tombi.C04_float_false",
    "Tombi.C04_time_false"
   ],
   "note": "The property is false as stated: regex typos accept 1:2, 0b0|1, +0x1F, 1._ and 12:30.5 (witness theorems *_false). The _partial theorems say exactly what is accepted."
  },
  {
   "property": "C05",
   "status": "partial",
   "theorems": [
    "Tombi.C05_basic_string",
    "Tombi.C05_literal_string",
    "Tombi.C05_multi_line_literal_string",
    "Tombi.C05_multi_line_basic_string_partial",
    "Tombi.C05_multi_line_basic_string_false",
    "Tombi.C05_basic_string_sound",
    "Tombi.C05_literal_string_sound",
    "Tombi.C05_single_line_string_holds_newline"
   ],
   "note": "Proved except multi-line basic strings whose body ends in an escaped backslash, where the property is false (witness)."
  },
  {
   "property": "C45",
   "status": "proved",
   "theorems": [
    "Tombi.C45_integer",
    "Tombi.C45_float_boolean",
    "Tombi.C45_date_time",
    "Tombi.C45_first_token"
   ],
   "note": ""
  },
  {
   "property": "C07",
   "status": "partial",
   "theorems": [
    "Tombi.C07_parse_lossless_partial",
    "Tombi.C07_parse_lossless_false"
   ],
   "note": "Hypothesis Parseable: the source is shorter than 2^28 bytes and no dotted float is separated by blanks from the start of the document or from another dotted float; without the latter parse panics (C08_parse_total_false)."
  },
  {
   "property": "C08",
   "status": "partial",
   "theorems": [
    "Tombi.C08_parse_total_partial",
    "Tombi.C08_parse_errors_partial",
    "Tombi.C08_parse_total_false"
   ],
   "note": "Hypothesis Parseable: the source is shorter than 2^28 bytes and no dotted float is separated by blanks from the start of the document or from another dotted float; without the latter parse panics (C08_parse_total_false)."
  },
  {
   "property": "C09",
   "status": "partial",
   "theorems": [
    "Tombi.C09_nesting_bounded_partial",
    "Tombi.C09_deep_reported_partial"
   ],
   "note": "Hypothesis Parseable: the source is shorter than 2^28 bytes and no dotted float is separated by blanks from the start of the document or from another dotted float; without the latter parse panics (C08_parse_total_false). C09_deep_reported_partial says that a source with more than 128 brackets and braces open at some place gives an error."
  },
  {
   "property": "C10",
   "status": "partial",
   "theorems": [
    "Tombi.C10_events_well_nested_partial"
   ],
   "note": "Hypothesis Parseable: the source is shorter than 2^28 bytes and no dotted float is separated by blanks from the start of the document or from another dotted float; without the latter parse panics (C08_parse_total_false)."
  },
  {
   "property": "C11",
   "status": "proved",
   "theorems": [
    "Tombi.C11_output_roundtrip"
   ],
   "note": "For streams of at most 2^31 events with token counts below 256 (a u8 in the code)."
  },
  {
   "property": "C12",
   "status": "proved",
   "theorems": [
    "Tombi.C12_token_set"
   ],
   "note": ""
  },
  {
   "property": "C13",
   "status": "partial",
   "theorems": [
    "Tombi.C13_basic_string_exact",
    "Tombi.C13_basic_string_partial",
    "Tombi.C13_multi_line_basic_string_partial",
    "Tombi.C13_valid_accepted_partial",
    "Tombi.C13_meaning_unique",
    "Tombi.C13_basic_string_false"
   ],
   "note": "The exact behaviour is proved for every body and version; it agrees with TOML on Regular bodies. False otherwise: a sign in \\u+041, a line-ending backslash in single-line strings, Unicode white space after a line-ending backslash."
  },
  {
   "property": "C14",
   "status": "partial",
   "theorems": [
    "Tombi.C14_roundtrip_partial",
    "Tombi.C14_never_misread",
    "Tombi.C14_one_token",
    "Tombi.C14_roundtrip_false"
   ],
   "note": "Equivalence: the round trip holds exactly for texts without NUL, BEL, VT (and ESC for TOML 1.0); false for those."
  },
  {
   "property": "C15",
   "status": "proved",
   "theorems": [
    "Tombi.C15_literal_string",
    "Tombi.C15_single_line_ok",
    "Tombi.C15_multi_line_literal_string"
   ],
   "note": "Multi-line bodies that start with a line feed are covered by C16."
  },
  {
   "property": "C16",
   "status": "partial",
   "theorems": [
    "Tombi.C16_first_newline_partial",
    "Tombi.C16_first_newline_false",
    "Tombi.C16_rendered_multi_line_literal"
   ],
   "note": "False for several leading line feeds (all dropped) and for a leading CRLF (kept)."
  },
  {
   "property": "C17",
   "status": "partial",
   "theorems": [
    "Tombi.C17_key_roundtrip_partial",
    "Tombi.C17_key_roundtrip_false"
   ],
   "note": "False for ${...} keys, printed without quotes on purpose, and for the characters of C14."
  },
  {
   "property": "C18",
   "status": "partial",
   "theorems": [
    "Tombi.C18_bare_key_exact",
    "Tombi.C18_bare_key_partial",
    "Tombi.C18_bare_key_false"
   ],
   "note": "The exact behaviour is proved; it agrees with TOML except for the empty text and texts with a dot."
  },
  {
   "property": "C19",
   "status": "proved",
   "theorems": [
    "Tombi.C19_decimal",
    "Tombi.C19_hexadecimal",
    "Tombi.C19_octal",
    "Tombi.C19_binary"
   ],
   "note": "Each is an equivalence: the value v is returned iff the text is in the TOML grammar, v is the number it denotes and v fits 64 bits."
  },
  {
   "property": "C46",
   "status": "partial",
   "theorems": [
    "Tombi.C46_float_partial",
    "Tombi.C46_float_false"
   ],
   "note": "Equivalence except for 0E.. with a capital E, valid but rejected (witness). The conversion of the accepted text to binary floating point is std's and not modelled."
  },
  {
   "property": "C20",
   "status": "proved",
   "theorems": [
    "Tombi.C20_local_date",
    "Tombi.C20_local_time",
    "Tombi.C20_local_date_time",
    "Tombi.C20_offset_date_time",
    "Tombi.C20_offset_parsed",
    "Tombi.C20_full_day_offset"
   ],
   "note": "Valid offsets are less than a day, which every parsed value meets; C20_full_day_offset shows that the documented bound of a full day does not print to a parseable text."
  },
  {
   "property": "C21",
   "status": "proved",
   "theorems": [
    "Tombi.C21_local_date",
    "Tombi.C21_local_time",
    "Tombi.C21_local_date_time",
    "Tombi.C21_offset_date_time"
   ],
   "note": "Equivalences for every text."
  },
  {
   "property": "C47",
   "status": "partial",
   "theorems": [
    "Tombi.C47_local_date",
    "Tombi.C47_local_time",
    "Tombi.C47_local_date_time_partial",
    "Tombi.C47_offset_date_time_partial",
    "Tombi.C47_false"
   ],
   "note": "Equivalences; false only for date-times with a fraction after the minutes (2024-01-01T12:30.5), accepted from TOML 1.1 on."
  },
  {
   "property": "C48",
   "status": "partial",
   "theorems": [
    "Tombi.C48_from_chrono_partial",
    "Tombi.C48_false"
   ],
   "note": "The conversion is faithful exactly for UTC without a fraction: seconds are stored as minutes and nanoseconds dropped."
  },
  {
   "property": "C22",
   "status": "proved",
   "theorems": [
    "Tombi.C22_version_sort"
   ],
   "note": "Reflexive, antisymmetric in the sense of swap, transitive, congruent, for all texts."
  },
  {
   "property": "C49",
   "status": "partial",
   "theorems": [
    "Tombi.C49_numbers_by_value_partial",
    "Tombi.C49_numbers_by_value_false"
   ],
   "note": "Holds for numbers below 2^64; larger numbers end the comparison (witness)."
  },
  {
   "property": "C50",
   "status": "partial",
   "theorems": [
    "Tombi.C50_equal_texts_partial",
    "Tombi.C50_hyphens",
    "Tombi.C50_equal_texts_false"
   ],
   "note": "Equivalence for texts whose numbers are below 2^64; larger numbers end the comparison (witness)."
  },
  {
   "property": "C23",
   "status": "partial",
   "theorems": [
    "Tombi.C23_contains",
    "Tombi.C23_contains_span",
    "Tombi.C23_intersect",
    "Tombi.C23_cover",
    "Tombi.C23_cover_offset",
    "Tombi.C23_checked_add",
    "Tombi.C23_checked_sub",
    "Tombi.C23_ordering_partial",
    "Tombi.C23_ordering_false",
    "Tombi.C23_equality",
    "Tombi.C23_range_intersects"
   ],
   "note": "All operations are proved except the ordering of empty spans, where an empty span is less than itself (witness)."
  },
  {
   "property": "C24",
   "status": "proved",
   "theorems": [
    "Tombi.C24_position_after",
    "Tombi.C24_relative_of",
    "Tombi.C24_assoc",
    "Tombi.C24_add_sub",
    "Tombi.C24_sub_add",
    "Tombi.C24_sub_later"
   ],
   "note": "For texts cut between graphemes, under the assumptions on the segmentation in Spec.Segments (met by a concrete segmentation, sampleSegments)."
  },
  {
   "property": "C25",
   "status": "proved",
   "theorems": [
    "Tombi.C25_lines",
    "Tombi.C25_lines_unique",
    "Tombi.C25_to_editor",
    "Tombi.C25_from_editor",
    "Tombi.C25_from_editor_any",
    "Tombi.C25_round_trip"
   ],
   "note": "Encodings UTF-8, UTF-16 and UTF-32; under Spec.Segments."
  },
  {
   "property": "C51",
   "status": "proved",
   "theorems": [
    "Tombi.C51_formatting_edit",
    "Tombi.C51_no_edit",
    "Tombi.C51_edit_unique"
   ],
   "note": "Under Spec.Segments."
  },
  {
   "property": "C52",
   "status": "partial",
   "theorems": [
    "Tombi.C52_token_ranges_partial",
    "Tombi.C52_token_ranges_false"
   ],
   "note": "Holds where every grapheme is one character; the lexer counts characters, the conversion counts graphemes (witness)."
  },
  {
   "property": "C26",
   "status": "proved",
   "theorems": [
    "Tombi.C26_distinct_keys",
    "Tombi.C26_keys_keep_their_place",
    "Tombi.C26_keys_keep_their_place_kvs",
    "Tombi.C26_merge_order"
   ],
   "note": "For every document, with or without errors."
  },
  {
   "property": "C27",
   "status": "partial",
   "theorems": [
    "Tombi.C27_tree_partial",
    "Tombi.C27_regular_without_arrays",
    "Tombi.C27_one_meaning_partial",
    "Tombi.C27_false"
   ],
   "note": "Equivalence: the tree has exactly the nodes the document denotes. Hypothesis Regular: a name that was an array of tables in an earlier element of an enclosing array is one again wherever a later header passes it; documents without arrays of tables are Regular (C27_regular_without_arrays). False otherwise (witness [[a]] [[a.b]] [[a]] [a.b.c])."
  },
  {
   "property": "C28",
   "status": "partial",
   "theorems": [
    "Tombi.C28_assignments_partial",
    "Tombi.C28_headers_partial",
    "Tombi.C28_values_not_reopened_partial",
    "Tombi.C28_tables_not_assigned_partial",
    "Tombi.C28_dotted_tables_partial",
    "Tombi.C28_false"
   ],
   "note": "Not reported: an inline table or dotted key assigned over a table that headers made implicitly (witnesses). Hypothesis Regular: a name that was an array of tables in an earlier element of an enclosing array is one again wherever a later header passes it; documents without arrays of tables are Regular (C27_regular_without_arrays)."
  },
  {
   "property": "C29",
   "status": "partial",
   "theorems": [
    "Tombi.C29_array_of_tables_partial",
    "Tombi.C29_sub_tables_partial",
    "Tombi.C27_false"
   ],
   "note": "Hypothesis Regular: a name that was an array of tables in an earlier element of an enclosing array is one again wherever a later header passes it; documents without arrays of tables are Regular (C27_regular_without_arrays)."
  },
  {
   "property": "C53",
   "status": "partial",
   "theorems": [
    "Tombi.C53_accepted_partial",
    "Tombi.C53_without_arrays",
    "Tombi.C53_accepted_false",
    "Tombi.C53_array_of_other_element_false"
   ],
   "note": "Proved for every valid document without arrays of tables, and for every valid document in which a header that passes an array of tables is not separated from its [[name]] by an array with another first key, and every array passed belongs to the current element. False in general: [[a]] [[b]] [a.c] and [[a]] [[a.b]] [[a]] [a.b.c] [a.b] are valid and rejected."
  },
  {
   "property": "C30",
   "status": "partial",
   "theorems": [
    "Tombi.C30_keys_permuted",
    "Tombi.C30_no_schema_permuted",
    "Tombi.C30_nothing_new",
    "Tombi.C30_sections_permuted_partial",
    "Tombi.C30_result",
    "Tombi.C30_false"
   ],
   "note": "Key-values, and sections without a schema: always a permutation, stable. Sections with a schema: a permutation if arrays of tables are Flat and Near; in general a section can be lost (witness). Flat and Near: no array of tables in another one, and an array of tables is not interrupted by another one."
  },
  {
   "property": "C31",
   "status": "proved",
   "theorems": [
    "Tombi.C31_sorted",
    "Tombi.C31_table_sorted",
    "Tombi.C31_others_stay",
    "Tombi.C31_groups_sorted",
    "Tombi.C31_schema_order",
    "Tombi.C31_explicit_order"
   ],
   "note": "All four orders, groups, and whole results at all depths."
  },
  {
   "property": "C54",
   "status": "partial",
   "theorems": [
    "Tombi.C54_header_accessors_partial",
    "Tombi.C54_false"
   ],
   "note": "Proved where Flat and Near hold; false otherwise (witnesses). Flat and Near: no array of tables in another one, and an array of tables is not interrupted by another one."
  },
  {
   "property": "C55",
   "status": "partial",
   "theorems": [
    "Tombi.C55_key_values",
    "Tombi.C55_sections_partial",
    "Tombi.C55_sections_no_schema_partial",
    "Tombi.C55_without_arrays",
    "Tombi.C55_false"
   ],
   "note": "Proved where Flat and Near hold (so for all documents without arrays of tables); false otherwise (witness). Flat and Near: no array of tables in another one, and an array of tables is not interrupted by another one."
  },
  {
   "property": "C32",
   "status": "partial",
   "theorems": [
    "Tombi.C32_unsorted",
    "Tombi.C32_values",
    "Tombi.C32_comments_partial",
    "Tombi.C32_other_comments",
    "Tombi.C32_order_all",
    "Tombi.C32_order_all_some",
    "Tombi.C32_order_groups",
    "Tombi.C32_inline_table",
    "Tombi.C32_false"
   ],
   "note": "Values and commas: proved for all groups. Comments: kept for all values but the last one, and for the last one if LastKept holds; otherwise comments can be lost or doubled (witnesses)."
  },
  {
   "property": "C33",
   "status": "proved",
   "theorems": [
    "Tombi.C33_basic_string",
    "Tombi.C33_literal_string",
    "Tombi.C33_keys",
    "Tombi.C33_idempotent",
    "Tombi.C33_one_token"
   ],
   "note": "All basic and literal strings and keys, all quote styles. The number of alignment spaces after keys is a parameter."
  },
  {
   "property": "C34",
   "status": "partial",
   "theorems": [
    "Tombi.C34_words_kept",
    "Tombi.C34_idempotent_partial",
    "Tombi.C34_one_line",
    "Tombi.C34_directives_kept",
    "Tombi.C34_false"
   ],
   "note": "Proved for all comments that are not directives, and for directives if the formatter of their content is idempotent; false otherwise (witness: content that cannot be parsed because of Unicode white space at its end)."
  },
  {
   "property": "C56",
   "status": "proved",
   "theorems": [
    "Tombi.C56_local_date_time",
    "Tombi.C56_offset_date_time"
   ],
   "note": "All tokens of the two kinds, all settings, all versions."
  },
  {
   "property": "C35",
   "status": "proved",
   "theorems": [
    "Tombi.Json.C35_json_lex_lossless",
    "Tombi.Json.C35_json_token_positions",
    "Tombi.Json.C35_json_lex_errors"
   ],
   "note": "All texts, any segmentation."
  },
  {
   "property": "C36",
   "status": "proved",
   "theorems": [
    "Tombi.Json.C36_json_string_exact",
    "Tombi.Json.C36_json_key",
    "Tombi.Json.C36_json_string_unique",
    "Tombi.Json.C36_json_string_writable"
   ],
   "note": "All string bodies."
  },
  {
   "property": "C37",
   "status": "partial",
   "theorems": [
    "Tombi.Json.C37_json_exact",
    "Tombi.Json.C37_json_total",
    "Tombi.Json.C37_json_ranges",
    "Tombi.Json.C37_json_unambiguous",
    "Tombi.Json.C37_json_reads_standard_partial",
    "Tombi.Json.C37_json_roundtrip",
    "Tombi.Json.C37_json_too_deep",
    "Tombi.Json.C37_json_duplicate_keys",
    "Tombi.Json.C37_json_carriage_return_false",
    "Tombi.Json.C37_json_display_false",
    "Tombi.Json.C37_json_accepts_more_false"
   ],
   "note": "The accepted texts and their values are characterised exactly (soundness and completeness); the round trip holds for a standard JSON printer. It does not hold for the Display of the code, and lone carriage returns are rejected (witnesses)."
  },
  {
   "property": "C57",
   "status": "partial",
   "theorems": [
    "Tombi.Json.C57_json_integer_exact_partial",
    "Tombi.Json.C57_json_integer_exact_false",
    "Tombi.Json.C57_json_integer_overflow_false"
   ],
   "note": "Exact up to 2^53; larger integers lose digits, saturate or become zero (witnesses). Conversion of decimal text to a float is modelled as round-to-nearest-even (trusted base)."
  },
  {
   "property": "C38",
   "status": "partial",
   "theorems": [
    "Tombi.Validate.C38_integer_exact_partial",
    "Tombi.Validate.C38_integer_reports_partial",
    "Tombi.Validate.C38_number_rounding_false",
    "Tombi.Validate.C38_multiple_of_zero_panics_false"
   ],
   "note": "Exact for every integer and every bound under the integer view, and each keyword is reported by its own rule exactly when violated. Under type number without integer, values are compared as f64 and large ones are wrong (witness); multipleOf 0 panics (witness)."
  },
  {
   "property": "C39",
   "status": "partial",
   "theorems": [
    "Tombi.Validate.C39_outcome_is_meaning_partial",
    "Tombi.Validate.C39_meaning_exists_unique",
    "Tombi.Validate.C39_severity_independent_partial",
    "Tombi.Validate.C39_one_of",
    "Tombi.Validate.C39_any_of",
    "Tombi.Validate.C39_all_of",
    "Tombi.Validate.C39_not",
    "Tombi.Validate.C39_if_then_else_partial",
    "Tombi.Validate.C39_severity_independent_false",
    "Tombi.Validate.C39_any_of_null_false",
    "Tombi.Validate.C39_any_of_beside_one_of_false",
    "Tombi.Validate.C39_member_keywords_false",
    "Tombi.Validate.C39_if_ignored_false",
    "Tombi.Validate.C39_ref_enum_false",
    "Tombi.Validate.C39_number_member_false",
    "Tombi.Validate.C39_recursive_any_of_false",
    "Tombi.Validate.C39_recursive_partial",
    "Tombi.Validate.C39_recursive_meaning",
    "Tombi.Validate.C39_recursive_rejected_false"
   ],
   "note": "For a schema fragment (Supported), also with recursion that goes down into the value and not through oneOf or anyOf (there it is false in both directions, witnesses), the outcome equals the JSON Schema meaning for every value, configuration and directive. Each single combinator equals the boolean combination for arbitrary member outcomes. Each exclusion from the fragment that matters has a counterexample. Floats, date-times, format and unevaluated* are not modelled."
  },
  {
   "property": "C58",
   "status": "partial",
   "theorems": [
    "Tombi.Validate.C58_failure_is_reported",
    "Tombi.Validate.C58_reported_iff_invalid_partial",
    "Tombi.Validate.C58_recursive_partial"
   ],
   "note": "Every failed assertion is reported, for every schema. The converse (only lints for a valid document) is proved in the fragment of C39."
  },
  {
   "property": "C40",
   "status": "partial",
   "theorems": [
    "Tombi.Accessor.C40_pattern_roundtrip_partial",
    "Tombi.Accessor.C40_schema_roundtrip_partial",
    "Tombi.Accessor.C40_document_path_partial",
    "Tombi.Accessor.C40_pattern_injective",
    "Tombi.Accessor.C40_roundtrip_false",
    "Tombi.Accessor.C40_literal_key",
    "Tombi.Accessor.C40_override_target"
   ],
   "note": "The paths that read back are characterised exactly, for both parsers. Pattern paths: all but the empty one, placeholders with dot or bracket, and four control characters. Schema paths: only keys that need no quotes (witnesses for the others)."
  },
  {
   "property": "C59",
   "status": "proved",
   "theorems": [
    "Tombi.Accessor.C59_markdown_code_span",
    "Tombi.Accessor.C59_markdown_one_line_partial"
   ],
   "note": "All paths. The printed path has no line break unless a key of the form ${...} has one."
  },
  {
   "property": "C60",
   "status": "proved",
   "theorems": [
    "Tombi.Accessor.C60_most_specific",
    "Tombi.Accessor.C60_subschema",
    "Tombi.Accessor.C60_no_subschema",
    "Tombi.Accessor.C60_exact_wins"
   ],
   "note": "All lists of overrides and sub-schemas, all paths."
  },
  {
   "property": "C41",
   "status": "partial",
   "theorems": [
    "Tombi.Cache.C41_read_iff",
    "Tombi.Cache.C41_read_own_partial",
    "Tombi.Cache.C41_save_then_read",
    "Tombi.Cache.C41_save_succeeds",
    "Tombi.Cache.C41_save_frame",
    "Tombi.Cache.C41_different_files_partial",
    "Tombi.Cache.C41_different_files_false",
    "Tombi.Cache.C41_crash_false",
    "Tombi.Cache.C41_save_conflict"
   ],
   "note": "Reads after every history of saves and refreshes are characterised exactly. That different URIs use different files is false (query, port, slash at the end, empty segments are ignored) and proved for URIs that differ in scheme, host or a plain path; an interrupted write leaves a partial file that is then served."
  },
  {
   "property": "C61",
   "status": "proved",
   "theorems": [
    "Tombi.Cache.C61_offline",
    "Tombi.Cache.C61_requests",
    "Tombi.Cache.C61_fresh_copy",
    "Tombi.Cache.C61_answer",
    "Tombi.Cache.C61_stale_copy",
    "Tombi.Cache.C61_no_cache",
    "Tombi.Cache.C61_second_load"
   ],
   "note": "The HTTP client, the JSON parser and UTF-8 decoding are parameters; the file system is modelled as a map from paths to directories and files."
  },
  {
   "property": "C42",
   "status": "partial",
   "theorems": [
    "Tombi.Lsp.C42_converges_partial",
    "Tombi.Lsp.C42_in_order_partial",
    "Tombi.Lsp.C42_no_text_false",
    "Tombi.Lsp.C42_same_version_false"
   ],
   "note": "Proved for every schedule of changes that carry a text and pairwise different versions, together with any number of diagnostics requests. False for changes without a text, and for equal versions (witnesses)."
  },
  {
   "property": "C62",
   "status": "partial",
   "theorems": [
    "Tombi.Lsp.C62_open_then_change_partial",
    "Tombi.Lsp.C62_change_lost_false"
   ],
   "note": "False: a change that arrives while the opening is still resolving the TOML version is dropped (witness). Proved when the document was inserted before the first change starts."
  },
  {
   "property": "C63",
   "status": "partial",
   "theorems": [
    "Tombi.Lsp.C63_text_of_version",
    "Tombi.Lsp.C63_request",
    "Tombi.Lsp.C63_close",
    "Tombi.Lsp.C63_delete",
    "Tombi.Lsp.C63_current_partial",
    "Tombi.Lsp.C63_current_false",
    "Tombi.Lsp.C63_reopened_false",
    "Tombi.Lsp.C63_file_false"
   ],
   "note": "The cache of diagnostics is keyed by the document version only: witnesses where a stale result stays. Linting is an uninterpreted function of text and TOML version."
  },
  {
   "property": "C43",
   "status": "partial",
   "theorems": [
    "Tombi.LintOrder.C43_tables",
    "Tombi.LintOrder.C43_dotted_keys",
    "Tombi.LintOrder.C43_dotted_keys_by_value",
    "Tombi.LintOrder.C43_tables_by_value_partial",
    "Tombi.LintOrder.C43_tables_by_value_false"
   ],
   "note": "For every list and every iteration order of the hash map. Tables are grouped by the source text of the first key: with escapes this is not the key (witness)."
  },
  {
   "property": "C64",
   "status": "proved",
   "theorems": [
    "Tombi.LintOrder.C64_missing_commas",
    "Tombi.LintOrder.C64_no_missing_comma",
    "Tombi.LintOrder.C64_forbidden_commas"
   ],
   "note": "On the lists of values that the rules iterate over."
  },
  {
   "property": "C65",
   "status": "partial",
   "theorems": [
    "Tombi.Formatter.C65_comments_end_lines",
    "Tombi.Formatter.C65_words_partial",
    "Tombi.Editing.C65_edited_words_partial",
    "Tombi.Editing.C65_sorted_partial",
    "Tombi.Editing.C65_regrouped_partial",
    "Tombi.Editing.C65_refused",
    "Tombi.Editing.C65_order_false",
    "Tombi.Editing.C65_comment_lost_false"
   ],
   "note": "All documents without syntax errors for which the parser is proved correct (C07), all settings, from source text to output text. The editor of the syntax tree that runs in between is included (edited): it moves comments behind commas, adds commas, gives directives a group of their own; what it does to documents where keys with the same start stand together (GatheredRoot). For other documents, and with any schema, settings and comment directives (sorted, regrouped): the tokens of the output are those of the source in some order, none added, none twice, and none lost without a schema. Keeping the order is false for them, also without a schema, and a comment before a comma of an inline table is lost (witnesses). Missing: the sections that are lost with a schema (C30_false), the comments that are lost, and the documents where the parser panics (C08_parse_total_false)."
  },
  {
   "property": "C66",
   "status": "partial",
   "theorems": [
    "Tombi.Formatter.C66_idempotent_partial",
    "Tombi.Reading.C66_toml_partial",
    "Tombi.Editing.C66_edited_partial",
    "Tombi.Editing.C66_edited_false",
    "Tombi.Editing.C66_merged_false",
    "Tombi.Formatter.C66_alignment_false",
    "Tombi.Formatter.C66_table_blank_lines_false",
    "Tombi.Formatter.C66_line_width_false"
   ],
   "note": "False with aligned equal signs, with table-blank-lines = 0, with a line width, for comments with control characters, and for inline tables whose groups become one line (witnesses). Proved for all other settings and all sources of TOML tokens (as in C68) without comment directives other than #:schema, both for the printer alone and for the editor and the printer together (edited, for documents where nothing has to be regrouped). Missing: regrouping, sorting by a schema or by comment directives."
  },
  {
   "property": "C68",
   "status": "partial",
   "theorems": [
    "Tombi.Formatter.C68_reparse_partial",
    "Tombi.Reading.C68_toml_partial",
    "Tombi.Editing.C68_edited_partial",
    "Tombi.Editing.C68_sorted_partial",
    "Tombi.Editing.C68_regrouped_partial",
    "Tombi.Formatter.C68_reparse_false"
   ],
   "note": "All sources without syntax errors whose tokens are TOML tokens, any number of them, nested in any way, all settings with at least one blank line between tables and groups. Missing: bare keys that begin with a date and go on, bare keys before a dot that are a date or digits, multi-line basic strings that end with an escaped backslash. The editor is included, with regrouping and sorting by any schema, settings and comment directives (C68_sorted_partial). False for the keys with a sign that tombi reads beyond the TOML grammar (witness)."
  },
  {
   "property": "C67",
   "status": "partial",
   "theorems": [
    "Tombi.C67_blanks_partial"
   ],
   "note": "All documents for which the parser is proved correct (C07). Missing: the documents with a detached dotted float key, where the parser panics (C08_parse_total_false)."
  },
  {
   "property": "C69",
   "status": "partial",
   "theorems": [
    "Tombi.TomlFile.C69_accepted_partial",
    "Tombi.TomlFile.C69_unambiguous",
    "Tombi.TomlFile.C69_date_key_false",
    "Tombi.TomlFile.C69_digit_key_false",
    "Tombi.TomlFile.C69_gap_false",
    "Tombi.TomlFile.C69_string_false"
   ],
   "note": "All texts of the TOML 1.1 grammar, any number of lines, any layout. False (witnesses) for bare keys that begin with a date and go on, bare keys of digits before a dot (panic), comments followed by a blank line before a comma, multi-line basic strings that end with an escaped backslash."
  },
  {
   "property": "C70",
   "status": "partial",
   "theorems": [
    "Tombi.Reading.C70_read_partial",
    "Tombi.Reading.C70_not_misread_partial",
    "Tombi.Reading.C70_duplicates_rejected_partial",
    "Tombi.Reading.C70_same_document",
    "Tombi.Reading.C70_accepted_means_partial",
    "Tombi.Reading.C70_meaningless_rejected_partial",
    "Tombi.Reading.C70_float_false",
    "Tombi.Reading.C70_newlines_false"
   ],
   "note": "All texts of the TOML grammar with the words of C69, from source text to document tree, for every version of TOML. False (witnesses) for floats 0E\u2026, multi-line strings that begin with an empty line or CRLF, and for what C69, C53, C27 and C28 have witnesses for (documents that are not Regular or not Uninterrupted). For the rejection of meaningless literals also without the strings of C13_basic_string_false. Floats are texts. The last step, from the tree to a Rust value, is C78."
  },
  {
   "property": "C71",
   "status": "partial",
   "theorems": [
    "Tombi.Reading.C71_data_kept_partial",
    "Tombi.Reading.C71_errors_kept_partial",
    "Tombi.Reading.C71_errors_kept_false",
    "Tombi.Reading.C71_meaning_kept_partial",
    "Tombi.Editing.C71_edited_data_kept_partial",
    "Tombi.Editing.C71_edited_errors_kept_partial",
    "Tombi.Editing.C71_edited_meaning_kept_partial",
    "Tombi.Editing.C71_sorted_partial",
    "Tombi.Editing.C71_regrouped_partial",
    "Tombi.Editing.C71_regrouped_meaning_partial",
    "Tombi.Editing.C71_swapped_false"
   ],
   "note": "From source text to document tree, for every setting of Env.Usual and every version of TOML; the texts are those of C68 (TomlSource) or of C69/C70 (FileText). The formatter of comment directives is a parameter that must not put control characters into a comment. With regrouping and sorting of keys and sections by schemas, settings and comment directives (sorted, regrouped) for valid documents whose arrays of tables stand together (Flat, Near): the values at all places stay, the order of keys in the tree may change. False for an array of tables whose parts do not stand together: formatting changes the order of its elements, also without a schema (C71_swapped_false). False the other way for comments that end with a form feed. Missing: what C68 misses."
  },
  {
   "property": "C72",
   "status": "partial",
   "theorems": [
    "Tombi.Serializing.C72_round_trip_partial",
    "Tombi.Serializing.C72_sequences_false",
    "Tombi.Serializing.C72_texts_false",
    "Tombi.Serializing.C72_numbers_false",
    "Tombi.Serializing.C72_keys_false",
    "Tombi.Serializing.C72_variants_false",
    "Tombi.Serializing.C72_panics_false"
   ],
   "note": "From what serde hands over to the text and back to the document tree, for every record with field names, scalars and shapes of Spec/Serialize.lean (Field). False, each with a witness: sequences without scalars that are no arrays of tables, texts with backslashes or quotation marks, floats that Display writes without a point, u64 over i64::MAX, keys with dots, blanks or nothing in them, variants with a payload, tables in elements of arrays of tables. Floats are texts; the last step of reading, from the tree to the Rust type, is C78."
  },
  {
   "property": "C73",
   "status": "partial",
   "theorems": [
    "Tombi.Cli.C73_check_writes_nothing",
    "Tombi.Cli.C73_others_untouched",
    "Tombi.Cli.C73_formatted_partial",
    "Tombi.Cli.C73_crash_partial",
    "Tombi.Cli.C73_untouched",
    "Tombi.Cli.C73_ends",
    "Tombi.Cli.C73_crash_false",
    "Tombi.Cli.C73_write_error_false",
    "Tombi.Cli.C73_duplicate_false"
   ],
   "note": "A transition system with one task for each file; schedules are lists of steps, so that every interleaving and every crash point is one. False, each with a witness: tombi empties a file before it writes it, so that a crash in between loses the text; a write error after tokio has taken the text over is not reported; a file that is given twice is formatted by two tasks at once and can lose text. Not modelled: other programs that write to the files, links, bytes."
  },
  {
   "property": "C74",
   "status": "partial",
   "theorems": [
    "Tombi.Cli.C74_counted",
    "Tombi.Cli.C74_zero_partial",
    "Tombi.Cli.C74_exit_code_partial",
    "Tombi.Cli.C74_then_check_partial",
    "Tombi.Cli.C74_toml_then_check_partial",
    "Tombi.Cli.C74_lint",
    "Tombi.Cli.C74_lint_counted"
   ],
   "note": "Every schedule, every order of joining. Missing: files that are given twice without --check. The last claim holds with the model of the formatter under the hypotheses of C66."
  },
  {
   "property": "C75",
   "status": "partial",
   "theorems": [
    "Tombi.Cli.C75_project",
    "Tombi.Cli.C75_named",
    "Tombi.Cli.C75_missing",
    "Tombi.Cli.C75_no_root",
    "Tombi.Cli.C75_asked_partial",
    "Tombi.Cli.C75_server_partial",
    "Tombi.Cli.C75_excluded_false",
    "Tombi.Cli.C75_server_false",
    "Tombi.Cli.C75_duplicate_false"
   ],
   "note": "For every file system, every glob_match. False, each with a witness: an excluded file is formatted when its directory is an argument; with an empty include list the command line takes every file, the server none; a file that is named twice is taken twice. The walker itself (crate ignore) and glob_match are parameters."
  },
  {
   "property": "C76",
   "status": "partial",
   "theorems": [
    "Tombi.Cli.C76_first",
    "Tombi.Cli.C76_files",
    "Tombi.Cli.C76_directory",
    "Tombi.Cli.C76_rules_partial",
    "Tombi.Cli.C76_same_file",
    "Tombi.Cli.C76_override_false"
   ],
   "note": "False for a rule that the project and the override both set: the value of the project wins (FormatRules::merge and LintRules::merge take self first, and self is the project)."
  },
  {
   "property": "C77",
   "status": "partial",
   "theorems": [
    "Tombi.Cli.C77_stdin_partial",
    "Tombi.Cli.C77_stdin_check",
    "Tombi.Cli.C77_disabled_false"
   ],
   "note": "False when an override switches formatting off for the file name: nothing is written, with exit code 0."
  },
  {
   "property": "C78",
   "status": "partial",
   "theorems": [
    "Tombi.Deserializing.C78_exact",
    "Tombi.Deserializing.C78_no_panic",
    "Tombi.Deserializing.C78_reads_partial",
    "Tombi.Deserializing.C78_one_value",
    "Tombi.Deserializing.C78_round_trip_partial",
    "Tombi.Deserializing.C78_dates_never",
    "Tombi.Deserializing.C78_dates_false",
    "Tombi.Deserializing.C78_tuples_false",
    "Tombi.Deserializing.C78_structs_false",
    "Tombi.Deserializing.C78_root_false"
   ],
   "note": "From source text to Rust value for every type of Ty, with serde's part for std types and derive written down from its documentation. C78_exact says exactly what is read; C78_reads_partial says that it is what the document says. False, each with a witness: a date-time is never read into a type of tombi-date-time (only a string is), an array longer than a tuple is cut, an array is taken for a struct, an Option, newtype or enum as the whole document is refused. Floats are texts. Missing: serde attributes (default, flatten, untagged, tag), f32, 128-bit numbers, tuple and struct variants; round trip only for what C72 can write."
  },
  {
   "property": "C79",
   "status": "partial",
   "theorems": [
    "Tombi.Editing.C79_no_schema",
    "Tombi.Editing.C79_ends_no_schema",
    "Tombi.Editing.C79_ends_partial",
    "Tombi.Editing.C79_panic_false",
    "Tombi.Editing.C79_endless_false"
   ],
   "note": "Proved without a schema for every document, and with any schemas that do not lead in circles for documents that have no array where a schema says that there is a table. False otherwise: unreachable!() in edit.rs:132-134 is reached (witness), and schemas that lead to each other never end (for every bound). The schema store and the validator are parameters."
  },
  {
   "property": "C80",
   "status": "partial",
   "theorems": [
    "Tombi.Editing.C80_ordered_partial",
    "Tombi.Editing.C80_text_partial",
    "Tombi.Editing.C80_directed_partial",
    "Tombi.Editing.C80_directed_text_partial"
   ],
   "note": "All documents that are read as a tree and whose arrays of tables stand together, all schemas that are not combined, with an order for all keys or for groups of keys: for all tables and inline tables of the document that is printed, and for all tables of the text read back; with orders from comments and settings (directed) for all tables that are not inline. Missing: combined schemas, other documents; inline tables of the text read back (groups become one line, C66_merged_false), and with directives. The schema store and how directives are read are parameters."
  },
  {
   "property": "C81",
   "status": "partial",
   "theorems": [
    "Tombi.Editing.C81_off_partial"
   ],
   "note": "All sources without syntax errors, all schemas (also combined), settings and directives. Missing: how comment directives and settings are read (parameters); settings for inline tables, and settings that turn sorting off for one schema only."
  },
  {
   "property": "C82",
   "status": "partial",
   "theorems": [
    "Tombi.Offer.C82_offers_partial",
    "Tombi.Offer.C82_candidates_partial",
    "Tombi.Offer.C82_pattern_false",
    "Tombi.Offer.C82_not_false",
    "Tombi.Offer.C82_backslash_false"
   ],
   "note": "All schemas of the keywords that completion tests, at every depth. False for other keywords (pattern, if/then/else, references: not tested) and for texts with backslashes (inserted without escapes); witnesses. Float equality and the test for multiples are those of the program; a whole number beyond 64 bits is not an integer."
  },
  {
   "property": "C83",
   "status": "partial",
   "theorems": [
    "Tombi.SchemaFile.C83_file_outcome_is_meaning_partial",
    "Tombi.SchemaFile.C83_reported_iff_invalid_partial",
    "Tombi.SchemaFile.C83_meaning_exists_unique",
    "Tombi.SchemaFile.C83_fraction_false",
    "Tombi.SchemaFile.C83_escaped_name_false",
    "Tombi.SchemaFile.C83_hidden_false",
    "Tombi.SchemaFile.C83_reference_cycle_false",
    "Tombi.SchemaFile.C83_recursive_rejected_false"
   ],
   "note": "All files of covered schemas, also recursive ones if the recursion goes down into the value and not through oneOf or anyOf, all dialects, all plain documents. Not covered: fractional bounds, format, dependencies, unevaluated keywords, references to other places than definitions, keywords beside $ref, floats and date-times. False for recursion through anyOf, fractions, names of definitions that have to be decoded, hidden properties and references in circles; witnesses."
  },
  {
   "property": "C84",
   "status": "partial",
   "theorems": [
    "Tombi.Locate.C84_token_at_position",
    "Tombi.Locate.C84_enclosing_nodes",
    "Tombi.Locate.C84_cursor_partial",
    "Tombi.Locate.C84_document_partial",
    "Tombi.Locate.C84_after_end_false"
   ],
   "note": "All trees and all positions up to the end of the document, for tokens and for nodes; cursors of the editor where no token ends inside a grapheme. A position after the end of the document makes the lookup panic (witness)."
  },
  {
   "property": "C85",
   "status": "partial",
   "theorems": [
    "Tombi.Pointer.C85_pointer_partial",
    "Tombi.Pointer.C85_empty_name_false",
    "Tombi.Pointer.C85_loose_index_false"
   ],
   "note": "All schema files, all pointers without empty names and without numbers written with a sign or leading zeros, all ways of percent-encoding. False for the excluded ones (witnesses). String::from_utf8_lossy is a parameter of which only is used that it reads the bytes of a text as the text."
  },
  {
   "property": "C86",
   "status": "partial",
   "theorems": [
    "Tombi.Formats.C86_date_accepted",
    "Tombi.Formats.C86_date_partial",
    "Tombi.Formats.C86_time_accepted",
    "Tombi.Formats.C86_time_partial",
    "Tombi.Formats.C86_local_time_accepted",
    "Tombi.Formats.C86_local_time_partial",
    "Tombi.Formats.C86_date_time_accepted",
    "Tombi.Formats.C86_date_time_partial",
    "Tombi.Formats.C86_local_date_time_accepted",
    "Tombi.Formats.C86_local_date_time_partial",
    "Tombi.Formats.C86_json_pointer",
    "Tombi.Formats.C86_sign_false",
    "Tombi.Formats.C86_uri_reference_accepted_partial",
    "Tombi.Formats.C86_uri_reference_rejected_partial",
    "Tombi.Formats.C86_question_false",
    "Tombi.Formats.C86_colon_false"
   ],
   "note": "JSON pointers: full. Dates and times: all texts of the formats are accepted; nothing else is accepted among the texts whose plus signs stand before two digits and a colon. False for other plus signs (witness). References: all relative references without question marks in query or fragment and without hosts in brackets are accepted; false for question marks, and other texts are accepted too (witnesses). Uri::from_str is an arbitrary parameter."
  },
  {
   "property": "C87",
   "status": "partial",
   "theorems": [
    "Tombi.Outline.C87_shows",
    "Tombi.Outline.C87_outline_partial",
    "Tombi.Outline.C87_nested_partial",
    "Tombi.Outline.C87_outline_false"
   ],
   "note": "That the outline shows the document: full, for documents without errors. Ranges, for every syntax tree: symbols lie inside the document, tables contain their keys and inline arrays their elements; elements of arrays of tables lie inside what contains the array. Arrays of tables contain their elements where no section continues an element; false otherwise (witness)."
  },
  {
   "property": "C88",
   "status": "partial",
   "theorems": [
    "Tombi.ConfigFile.C88_nearest",
    "Tombi.ConfigFile.C88_common_partial",
    "Tombi.ConfigFile.C88_user_false",
    "Tombi.ConfigFile.C88_editor_partial",
    "Tombi.ConfigFile.C88_settings_partial",
    "Tombi.ConfigFile.C88_editor_false"
   ],
   "note": "The nearest configuration of the project: full. User, system and default: all file systems; false where the file of the user or the system is invalid: loading panics (witness, and exactly then). Editor: all histories in which the same file has the configuration of the document and the editor was told of its last change, or no file has one; false where a nearer file is made later (witness). Reading a configuration from a text is a parameter; Linux; requests one after the other."
  },
  {
   "property": "C89",
   "status": "partial",
   "theorems": [
    "Tombi.Refactor.C89_place",
    "Tombi.Refactor.C89_to_inline_partial",
    "Tombi.Refactor.C89_to_dotted_partial",
    "Tombi.Refactor.C89_quoted_false",
    "Tombi.Refactor.C89_shared_false",
    "Tombi.Refactor.C89_comma_false"
   ],
   "note": "All valid texts of C70 and all their key-values at the top of the document, with any spacing, comments around them, keys, values and other tables. To an inline table: where no other key-value and no header begins with the same keys, the key in the braces is a bare key and the key before them is printed without escapes. To dotted keys: inline tables with one key-value. False otherwise: quoted keys lose their quotation marks, shared keys end in another document or a broken one (witnesses). Missing: key-values below headers, in arrays and in other inline tables; that the ranges are those of the text is a hypothesis (KeysAt, PairAt, InlineAt)."
  },
  {
   "property": "C90",
   "status": "partial",
   "theorems": [
    "Tombi.SemanticTokens.C90_shown_partial",
    "Tombi.SemanticTokens.C90_place",
    "Tombi.SemanticTokens.C90_length",
    "Tombi.SemanticTokens.C90_backwards",
    "Tombi.SemanticTokens.C90_directive_partial",
    "Tombi.SemanticTokens.C90_comment",
    "Tombi.SemanticTokens.C90_directive_false",
    "Tombi.SemanticTokens.C90_schema_false",
    "Tombi.SemanticTokens.C90_order_partial",
    "Tombi.SemanticTokens.C90_document_partial",
    "Tombi.SemanticTokens.C90_unclosed_false",
    "Tombi.SemanticTokens.C90_kinds",
    "Tombi.SemanticTokens.C90_items",
    "Tombi.SemanticTokens.C90_item_comments",
    "Tombi.SemanticTokens.C90_header_keys",
    "Tombi.SemanticTokens.C90_header_brackets",
    "Tombi.SemanticTokens.C90_section_comments",
    "Tombi.SemanticTokens.C90_root_comments"
   ],
   "note": "All texts, encodings and sequences of elements in the order of the text, of one or several lines, with and without directives. False for directives after white space that is not ASCII, and for an indented schema directive (witnesses). The traversal finds the elements in order and without overlaps in every syntax tree with the shape of a complete document (C90_order_partial, C90_document_partial); false in arrays and inline tables that are not closed (C90_unclosed_false). In every syntax tree, each element found is in the tree at its place with the type of its kind (C90_kinds), and the keys, equals signs, literals and comments of all key-values and values, and the headers and comments of all tables and of the document are found (C90_items, C90_item_comments, C90_header_keys, C90_header_brackets, C90_section_comments, C90_root_comments). Missing: that the tree of every document without syntax errors has the shape."
  }
 ]
}