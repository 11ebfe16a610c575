{
 "claims": [
  {
   "property": "C01",
   "status": "proved",
   "theorems": [
    "Bubbler.C01_roundtrip"
   ],
   "note": "All accepted schemas without a directly nested variable-length struct."
  },
  {
   "property": "C02",
   "status": "proved",
   "theorems": [
    "Bubbler.C02_size_exact",
    "Bubbler.C02_size_is_wire_size"
   ],
   "note": ""
  },
  {
   "property": "C03",
   "status": "proved",
   "theorems": [
    "Bubbler.C03_wire_layout",
    "Bubbler.C03_field_position",
    "Bubbler.C03_fixed_prefix"
   ],
   "note": ""
  },
  {
   "property": "C05",
   "status": "proved",
   "theorems": [
    "Bubbler.C05_frame",
    "Bubbler.C05_void_zero"
   ],
   "note": ""
  },
  {
   "property": "C06",
   "status": "proved",
   "theorems": [
    "Bubbler.C06_encode_option_independent",
    "Bubbler.C06_decode_option_independent"
   ],
   "note": ""
  },
  {
   "property": "C07",
   "status": "proved",
   "theorems": [
    "Bubbler.C07_trailing_data",
    "Bubbler.C07_stream"
   ],
   "note": ""
  },
  {
   "property": "C08",
   "status": "proved",
   "theorems": [
    "Bubbler.C08_truncated"
   ],
   "note": ""
  },
  {
   "property": "C09",
   "status": "proved",
   "theorems": [
    "Bubbler.C09_decode_total",
    "Bubbler.C09_decode_total_noDynArr"
   ],
   "note": ""
  },
  {
   "property": "C10",
   "status": "proved",
   "theorems": [
    "Bubbler.C10_decodeSize_of_encoding",
    "Bubbler.C10_decode_count"
   ],
   "note": ""
  },
  {
   "property": "C11",
   "status": "proved",
   "theorems": [
    "Bubbler.C11_missing_bytes"
   ],
   "note": ""
  },
  {
   "property": "C04",
   "status": "proved",
   "theorems": [
    "Bubbler.C04_big_endian_bit",
    "Bubbler.C04_bijection",
    "Bubbler.C04_bytes"
   ],
   "note": ""
  },
  {
   "property": "C12",
   "status": "proved",
   "theorems": [
    "Bubbler.C12_sign_extension",
    "Bubbler.C12_total"
   ],
   "note": ""
  },
  {
   "property": "C13",
   "status": "proved",
   "theorems": [
    "Bubbler.C13_bytes_encoding",
    "Bubbler.C13_varint",
    "Bubbler.C13_bytes_decoding",
    "Bubbler.C13_long_prefix_refused"
   ],
   "note": ""
  },
  {
   "property": "C14",
   "status": "proved",
   "theorems": [
    "Bubbler.C14_string_encoding",
    "Bubbler.C14_string_decoding",
    "Bubbler.C14_string_roundtrip",
    "Bubbler.C14_nul_counterexample"
   ],
   "note": ""
  },
  {
   "property": "C15",
   "status": "proved",
   "theorems": [
    "Bubbler.C15_constant_checked",
    "Bubbler.C15_wrong_constant_refused",
    "Bubbler.C15_constant_encoded",
    "Bubbler.C15_unfit_constant_counterexample",
    "Bubbler.C15_unfit_constant_undecodable"
   ],
   "note": "Constants that do not fit their width are accepted by the compiler: counterexamples proved."
  },
  {
   "property": "C16",
   "status": "proved",
   "theorems": [
    "Bubbler.C16_decoded_reencodable"
   ],
   "note": ""
  },
  {
   "property": "C17",
   "status": "proved",
   "theorems": [
    "Bubbler.C17_encode_agrees",
    "Bubbler.C17_decode_agrees",
    "Bubbler.C17_decode_any_input",
    "Bubbler.C17_exchange",
    "Bubbler.C17_field_positions",
    "Bubbler.C17_helper_positions",
    "Bubbler.C17_field_decoding",
    "Bubbler.C17_positions_aligned",
    "Bubbler.C17_encode_counterexample",
    "Bubbler.C17_dirty_buffer_counterexample",
    "Bubbler.C17_length_counterexample"
   ],
   "note": "C and C++ emit the same statements and share one model. The position condition is shown exact per field; counterexamples show that a zeroed buffer, the position condition and the 2^31 limit are needed."
  },
  {
   "property": "C18",
   "status": "proved",
   "theorems": [
    "Bubbler.C18_size_annotation",
    "Bubbler.C18_absent_parts",
    "Bubbler.C18_size_text",
    "Bubbler.C18_size_text_injective",
    "Bubbler.C18_position_text",
    "Bubbler.C18_overflow_counterexample"
   ],
   "note": ""
  },
  {
   "property": "C34",
   "status": "proved",
   "theorems": [
    "Bubbler.C34_ordered_map",
    "Bubbler.C34_no_panic",
    "Bubbler.C34_unique_keys",
    "Bubbler.C34_sub",
    "Bubbler.C34_sub_empty",
    "Bubbler.C34_zero_key_counterexample"
   ],
   "note": ""
  },
  {
   "property": "C36",
   "status": "proved",
   "theorems": [
    "Bubbler.C36_relative_path",
    "Bubbler.C36_relative_path_strict",
    "Bubbler.C36_python",
    "Bubbler.C36_equals",
    "Bubbler.C36_nested_example"
   ],
   "note": ""
  },
  {
   "property": "C37",
   "status": "proved",
   "theorems": [
    "Bubbler.C37_no_tab",
    "Bubbler.C37_no_trailing_blank",
    "Bubbler.C37_blank_lines",
    "Bubbler.C37_final_newline",
    "Bubbler.C37_content",
    "Bubbler.C37_unchanged",
    "Bubbler.C37_idempotent",
    "Bubbler.C37_cr_counterexample"
   ],
   "note": ""
  },
  {
   "property": "C38",
   "status": "proved",
   "theorems": [
    "Bubbler.C38_no_match",
    "Bubbler.C38_first_match",
    "Bubbler.C38_suffix",
    "Bubbler.C38_below_output",
    "Bubbler.C38_option",
    "Bubbler.C38_written_at",
    "Bubbler.C38_textual_counterexample"
   ],
   "note": ""
  },
  {
   "property": "C39",
   "status": "proved",
   "theorems": [
    "Bubbler.C39_keeps_all",
    "Bubbler.C39_nil",
    "Bubbler.C39_wf",
    "Bubbler.C39_assoc",
    "Bubbler.C39_assoc3"
   ],
   "note": ""
  },
  {
   "property": "C40",
   "status": "proved",
   "theorems": [
    "Bubbler.C40_lookup",
    "Bubbler.C40_list",
    "Bubbler.C40_listed_resolve"
   ],
   "note": ""
  },
  {
   "property": "C41",
   "status": "proved",
   "theorems": [
    "Bubbler.C41_refused",
    "Bubbler.C41_accepted",
    "Bubbler.C41_loop"
   ],
   "note": ""
  },
  {
   "property": "C42",
   "status": "proved",
   "theorems": [
    "Bubbler.C42_format_parse",
    "Bubbler.C42_format_parse_decimal",
    "Bubbler.C42_minimal_type_sound",
    "Bubbler.C42_minimal_type_minimal",
    "Bubbler.C42_source_to_target",
    "Bubbler.C42_negative_hex_counterexample",
    "Bubbler.C42_not_minimal_counterexample"
   ],
   "note": ""
  },
  {
   "property": "C44",
   "status": "proved",
   "theorems": [
    "Bubbler.C44_highBit",
    "Bubbler.C44_machine_type",
    "Bubbler.C44_zero"
   ],
   "note": ""
  },
  {
   "property": "C35",
   "status": "proved",
   "theorems": [
    "Bubbler.C35_keeps_letters",
    "Bubbler.C35_keeps_letters_ident",
    "Bubbler.C35_keeps_underscores",
    "Bubbler.C35_style",
    "Bubbler.C35_style_applies",
    "Bubbler.C35_recommendation_stable",
    "Bubbler.C35_snake_idempotent",
    "Bubbler.C35_not_idempotent",
    "Bubbler.C35_not_injective",
    "Bubbler.C35_words",
    "Bubbler.C35_checks",
    "Bubbler.C35_name_rules"
   ],
   "note": "name style conversions keep letters and produce the style; negative results show Pascal/ALL_CAP single application is not idempotent and conversions are not injective"
  },
  {
   "property": "C19",
   "status": "proved",
   "theorems": [
    "Bubbler.C19_layout",
    "Bubbler.C19_overflow_counterexample"
   ],
   "note": "sums below 2^63; the overflow counterexample shows an accepted struct whose true size overflows"
  },
  {
   "property": "C20",
   "status": "proved",
   "theorems": [
    "Bubbler.C20_aligned",
    "Bubbler.C20_refused"
   ],
   "note": ""
  },
  {
   "property": "C21",
   "status": "proved",
   "theorems": [
    "Bubbler.C21_declared_size",
    "Bubbler.C21_accepted_iff"
   ],
   "note": ""
  },
  {
   "property": "C22",
   "status": "proved",
   "theorems": [
    "Bubbler.C22_field_size",
    "Bubbler.C22_refused",
    "Bubbler.C22_variable"
   ],
   "note": ""
  },
  {
   "property": "C23",
   "status": "proved",
   "theorems": [
    "Bubbler.C23_unique_names",
    "Bubbler.C23_refused"
   ],
   "note": ""
  },
  {
   "property": "C25",
   "status": "proved",
   "theorems": [
    "Bubbler.C25_numbering",
    "Bubbler.C25_minus_one_counterexample",
    "Bubbler.C25_range_counterexample"
   ],
   "note": ""
  },
  {
   "property": "C27",
   "status": "proved",
   "theorems": [
    "Bubbler.C27_constant",
    "Bubbler.C27_refused",
    "Bubbler.C27_fit_counterexample"
   ],
   "note": ""
  },
  {
   "property": "C28",
   "status": "proved",
   "theorems": [
    "Bubbler.C28_field_options",
    "Bubbler.C28_file_options"
   ],
   "note": ""
  },
  {
   "property": "C29",
   "status": "proved",
   "theorems": [
    "Bubbler.C29_terminates",
    "Bubbler.C29_cycle_refused",
    "Bubbler.C29_self_import",
    "Bubbler.C29_false_cycle_counterexample"
   ],
   "note": "the counterexample shows that a cycle may also be reported where there is none, after another error"
  },
  {
   "property": "C30",
   "status": "proved",
   "theorems": [
    "Bubbler.C30_units"
   ],
   "note": ""
  },
  {
   "property": "C31",
   "status": "proved",
   "theorems": [
    "Bubbler.C31_errors_reported",
    "Bubbler.C31_accepted_iff",
    "Bubbler.C31_empty_name_counterexample"
   ],
   "note": "a compiler panic (finding 24) counts as not swallowed; the empty file name compiles nothing without an error"
  },
  {
   "property": "C32",
   "status": "proved",
   "theorems": [
    "Bubbler.C32_packages",
    "Bubbler.C32_refused"
   ],
   "note": ""
  },
  {
   "property": "C33",
   "status": "proved",
   "theorems": [
    "Bubbler.C33_add_name",
    "Bubbler.C33_tables",
    "Bubbler.C33_imported_resolve",
    "Bubbler.C33_clash_refused"
   ],
   "note": ""
  },
  {
   "property": "C26",
   "status": "proved",
   "theorems": [
    "Bubbler.C26_declared_before",
    "Bubbler.C26_not_recursive",
    "Bubbler.C26_no_cycle",
    "Bubbler.C26_values_declared_before",
    "Bubbler.C26_panic_counterexample",
    "Bubbler.C26_inline_counterexample"
   ],
   "note": "the counterexamples show a reference that makes the compiler panic and inline definitions that later definitions cannot name"
  },
  {
   "property": "C24",
   "status": "proved",
   "theorems": [
    "Bubbler.C24_embedding_is_inlining",
    "Bubbler.C24_nested_definition"
   ],
   "note": "The embedded struct may be named or defined in place; it must not itself contain struct definitions (BodyA.plain). The 0-bit record of the embedding is the only difference."
  },
  {
   "property": "C45",
   "status": "proved",
   "theorems": [
    "Bubbler.C45_schema",
    "Bubbler.C45_roundtrip",
    "Bubbler.C45_fields",
    "Bubbler.C45_position"
   ],
   "note": ""
  },
  {
   "property": "C43",
   "status": "proved",
   "theorems": [
    "Bubbler.C43_expression",
    "Bubbler.C43_trailing_ignored",
    "Bubbler.C43_parentheses",
    "Bubbler.C43_integers",
    "Bubbler.C43_bytes",
    "Bubbler.C43_groups_right",
    "Bubbler.C43_right_counterexample",
    "Bubbler.C43_equality_counterexample",
    "Bubbler.C43_int64",
    "Bubbler.C43_unary",
    "Bubbler.C43_logic",
    "Bubbler.C43_unclosed"
   ],
   "note": "IEEE arithmetic is a parameter of the model"
  },
  {
   "property": "C46",
   "status": "proved",
   "theorems": [
    "Bubbler.C46_encode_agrees",
    "Bubbler.C46_decode_agrees",
    "Bubbler.C46_roundtrip",
    "Bubbler.C46_from_go",
    "Bubbler.C46_field_positions",
    "Bubbler.C46_helpers",
    "Bubbler.C46_decode_counterexample",
    "Bubbler.C46_signed_constant_counterexample"
   ],
   "note": "floats are their bit patterns; UTF-8 validity and enum membership are parameters of the model; the counterexamples show that the conditions on positions and signed constants cannot be dropped"
  },
  {
   "property": "C47",
   "status": "proved",
   "theorems": [
    "Bubbler.C47_go",
    "Bubbler.C47_types",
    "Bubbler.C47_c_setter",
    "Bubbler.C47_c_getter",
    "Bubbler.C47_cpp",
    "Bubbler.C47_csharp",
    "Bubbler.C47_python",
    "Bubbler.C47_java",
    "Bubbler.C47_js",
    "Bubbler.C47_kotlin",
    "Bubbler.C47_kotlin_types",
    "Bubbler.C47_kotlin_minus_counterexample",
    "Bubbler.C47_minus_counterexample",
    "Bubbler.C47_python_not_counterexample",
    "Bubbler.C47_python_power_counterexample",
    "Bubbler.C47_js_power_counterexample"
   ],
   "note": "the eight targets named; digits of float literals after the sixth (finding 39) are excluded by the notion of a good literal"
  },
  {
   "property": "C48",
   "status": "proved",
   "theorems": [
    "Bubbler.C48_accepted",
    "Bubbler.C48_table"
   ],
   "note": ""
  },
  {
   "property": "C49",
   "status": "proved",
   "theorems": [
    "Bubbler.C49_encode_agrees",
    "Bubbler.C49_safe",
    "Bubbler.C49_decode_agrees",
    "Bubbler.C49_decode_canonical",
    "Bubbler.C49_decode_sound",
    "Bubbler.C49_decode_exact",
    "Bubbler.C49_roundtrip",
    "Bubbler.C49_from_go",
    "Bubbler.C49_encode_counterexample",
    "Bubbler.C49_prefix_counterexample",
    "Bubbler.C49_exception_counterexample",
    "Bubbler.C49_long_prefix_counterexample"
   ],
   "note": "floats are their bit patterns; UTF-8 decoding and enum membership are parameters of the model; the counterexamples show that the conditions on nested dynamic structs and length prefixes cannot be dropped"
  },
  {
   "property": "C50",
   "status": "proved",
   "theorems": [
    "Bubbler.C50_encode_agrees",
    "Bubbler.C50_decode_canonical",
    "Bubbler.C50_from_go",
    "Bubbler.C50_roundtrip",
    "Bubbler.C50_decode_sound",
    "Bubbler.C50_uint32_counterexample",
    "Bubbler.C50_int64_counterexample",
    "Bubbler.C50_const_counterexample",
    "Bubbler.C50_enum_counterexample",
    "Bubbler.C50_utf8_counterexample",
    "Bubbler.C50_surrogate_counterexample"
   ],
   "note": "floats are their bit patterns; data are Uint8Arrays; the counterexamples show that the conditions on values cannot be dropped"
  },
  {
   "property": "C51",
   "status": "proved",
   "theorems": [
    "Bubbler.C51_count",
    "Bubbler.C51_write",
    "Bubbler.C51_read",
    "Bubbler.C51_injective"
   ],
   "note": "UTF-8 is that of Lean's library (String.utf8EncodeChar)"
  },
  {
   "property": "C52",
   "status": "proved",
   "theorems": [
    "Bubbler.C52_encode_size",
    "Bubbler.C52_decode_size_any_input",
    "Bubbler.C52_checked_decode",
    "Bubbler.C52_decode_size",
    "Bubbler.C52_decode_size_of_encoding",
    "Bubbler.C52_positive_counterexample",
    "Bubbler.C52_wrap_counterexample",
    "Bubbler.C52_shift_counterexample"
   ],
   "note": "decode_size of definitions with bytes fields is related to Go on completable inputs only; the counterexamples show why"
  },
  {
   "property": "C53",
   "status": "proved",
   "theorems": [
    "Bubbler.C53_encode_agrees",
    "Bubbler.C53_decode_agrees",
    "Bubbler.C53_from_go",
    "Bubbler.C53_roundtrip",
    "Bubbler.C53_decode_sound",
    "Bubbler.C53_start_counterexample",
    "Bubbler.C53_nested_counterexample",
    "Bubbler.C53_prefix_counterexample",
    "Bubbler.C53_float_counterexample"
   ],
   "note": "floats are their bit patterns; UTF-8 decoding and enum membership are parameters of the model; the counterexamples show that the conditions on looped arrays, prefixes and floats cannot be dropped"
  },
  {
   "property": "C54",
   "status": "proved",
   "theorems": [
    "Bubbler.C54_encode_agrees",
    "Bubbler.C54_decode_agrees",
    "Bubbler.C54_from_go",
    "Bubbler.C54_roundtrip",
    "Bubbler.C54_decode_sound",
    "Bubbler.C54_prefix_counterexample",
    "Bubbler.C54_float_counterexample",
    "Bubbler.C54_enum_counterexample",
    "Bubbler.C54_slice_counterexample"
   ],
   "note": "floats are their bit patterns; UTF-8 decoding is a parameter of the model; the counterexamples show that the conditions cannot be dropped"
  },
  {
   "property": "C55",
   "status": "proved",
   "theorems": [
    "Bubbler.C55_types",
    "Bubbler.C55_top_level",
    "Bubbler.C55_shallow_misses",
    "Bubbler.C55_succeeds"
   ],
   "note": "the text of a definition is reduced to whether producing it fails; hypothesis: no two definitions of a file stand at the same line and column"
  },
  {
   "property": "C56",
   "status": "proved",
   "theorems": [
    "Bubbler.C56_reachable",
    "Bubbler.C56_transitive",
    "Bubbler.C56_direct",
    "Bubbler.C56_go",
    "Bubbler.C56_direct_fails",
    "Bubbler.C56_go_unused",
    "Bubbler.C56_omitted_fails"
   ],
   "note": "what an import statement of the target language makes visible is in the statements (directly, or directly and indirectly); packages are identified with the paths of their files (C32)"
  },
  {
   "property": "C57",
   "status": "proved",
   "theorems": [
    "Bubbler.C57_distinct",
    "Bubbler.C57_rmpath",
    "Bubbler.C57_place",
    "Bubbler.C57_types",
    "Bubbler.C57_single",
    "Bubbler.C57_rmpath_counterexample",
    "Bubbler.C57_go_counterexample"
   ],
   "note": "paths are compared as lists of components; file systems that identify different names are not modelled; hypotheses: names as the lexer gives them (no slashes; true of every text: C64), parts of go_package not empty, . or .."
  },
  {
   "property": "C58",
   "status": "proved",
   "theorems": [
    "Bubbler.C58_files",
    "Bubbler.C58_packages",
    "Bubbler.C58_go",
    "Bubbler.C58_go_relative",
    "Bubbler.C58_cpp_names",
    "Bubbler.C58_cpp_counterexample",
    "Bubbler.C58_esm_counterexample"
   ],
   "note": "how the target language finds a file is the specification `follow`/`search` in Props/ImportProps: absolute references need a search path on which the directory removed by -rmpath stands for the output directory; hypotheses: names as the lexer gives them (true of every text: C64), parts of package options not empty, . or ..; outputs left out by omit_empty are referred to all the same (finding 60)"
  },
  {
   "property": "C59",
   "status": "proved",
   "theorems": [
    "Bubbler.C59_go",
    "Bubbler.C59_c",
    "Bubbler.C59_python",
    "Bubbler.C59_kotlin",
    "Bubbler.C59_js",
    "Bubbler.C59_java",
    "Bubbler.C59_csharp",
    "Bubbler.C59_truncated_python",
    "Bubbler.C59_truncated_kotlin",
    "Bubbler.C59_truncated_js",
    "Bubbler.C59_truncated_java",
    "Bubbler.C59_truncated_csharp",
    "Bubbler.C59_prefix_free",
    "Bubbler.C59_unique"
   ],
   "note": "the reader is `Reader.read` in Props/StreamProps; truncated messages in Go and C: C08_truncated, C52_decode_size_of_encoding; restrictions of values and definitions as in C46, C50, C53, C54; streams shorter than 2^62 bytes (Go, Python), 2^31 (C), 2^30 (Kotlin, Java, C#), 2^28 (JavaScript)"
  },
  {
   "property": "C60",
   "status": "proved",
   "theorems": [
    "Bubbler.C60_layout",
    "Bubbler.C60_exact",
    "Bubbler.C60_places",
    "Bubbler.C60_error",
    "Bubbler.C60_written"
   ],
   "note": "the lexer model interprets the rules of bubbler.g4 as regular expressions with longest match and, among equals, the first rule; that ANTLR does this is trusted; the specification (Front/TokSpec) does not mention the rules"
  },
  {
   "property": "C61",
   "status": "proved",
   "theorems": [
    "Bubbler.C61_exact",
    "Bubbler.C61_unambiguous",
    "Bubbler.C61_expr",
    "Bubbler.C61_groups",
    "Bubbler.C61_ternary",
    "Bubbler.C61_prefix",
    "Bubbler.C61_written"
   ],
   "note": "the parser model is a recursive descent parser with precedence climbing as in bubbler_parser.go 7110-7600; that ANTLR's prediction accepts the language of the grammar is trusted; the specification is the grammar read as a rule for writing (Tree.lean: toks, WF)"
  },
  {
   "property": "C62",
   "status": "proved",
   "theorems": [
    "Bubbler.C62_string",
    "Bubbler.C62_text",
    "Bubbler.C62_every",
    "Bubbler.C62_import",
    "Bubbler.C62_int",
    "Bubbler.C62_float"
   ],
   "note": "strconv.Unquote, ParseInt and the overflow check of ParseFloat are modelled; rounding of floats is not (a float keeps its text); exponents up to 100000"
  },
  {
   "property": "C63",
   "status": "proved",
   "theorems": [
    "Bubbler.C63_layout",
    "Bubbler.C63_blanks"
   ],
   "note": "file contents are sequences of Unicode characters; errors are compared without their positions and texts"
  },
  {
   "property": "C64",
   "status": "proved",
   "theorems": [
    "Bubbler.C64_layout",
    "Bubbler.C64_types",
    "Bubbler.C64_files",
    "Bubbler.C64_references"
   ],
   "note": "the hypotheses of C55-C58 about names and places are discharged for every text (Front/Source: read_places, read_words); the text inside the files is not modelled (which types, which names, which references)"
  },
  {
   "property": "C65",
   "status": "proved",
   "theorems": [
    "Bubbler.C65_import",
    "Bubbler.C65_main",
    "Bubbler.C65_units",
    "Bubbler.C65_cwd",
    "Bubbler.C65_spelling_counterexample"
   ],
   "note": "filepath.Clean, Dir, Join, Abs of Unix are modelled; a disk is a function from places (lists of names) to sources, paths are looked up by walking: no links, and . and .. are not checked to exist; the spelling exception is finding 30"
  },
  {
   "property": "C66",
   "status": "proved",
   "theorems": [
    "Bubbler.C66_relocation",
    "Bubbler.C66_command"
   ],
   "note": "renaming invariance of the compiler (Compiler/Rename) along an injection of paths; the text inside the files is not modelled (which types, names, references); only projects that compile: error messages contain paths"
  },
  {
   "property": "C67",
   "status": "proved",
   "theorems": [
    "Bubbler.C67_definitions",
    "Bubbler.C67_names",
    "Bubbler.C67_messages"
   ],
   "note": "the specification (Front/Meaning) is a relation between trees of texts and definitions, independent of the compiler's tables and order; expressions of methods are not part of definitions in this model (C47 treats them); floats keep their text"
  },
  {
   "property": "C68",
   "status": "proved",
   "theorems": [
    "Bubbler.C68_equivalence",
    "Bubbler.C68_equal_content",
    "Bubbler.C68_content_equal",
    "Bubbler.C68_exact",
    "Bubbler.C68_hash",
    "Bubbler.C68_java_roundtrip",
    "Bubbler.C68_java_bytes",
    "Bubbler.C68_kotlin_roundtrip",
    "Bubbler.C68_kotlin_bytes",
    "Bubbler.C68_csharp_roundtrip",
    "Bubbler.C68_zero_counterexample",
    "Bubbler.C68_nan_counterexample",
    "Bubbler.C68_csharp_bytes_counterexample"
   ],
   "note": "the effect of library functions (Objects.equals, Arrays.equals, SequenceEqual, contentEquals, hash codes of floats) is transcribed from their documentation; hash codes of other leaves are arbitrary functions"
  },
  {
   "property": "C69",
   "status": "proved",
   "theorems": [
    "Bubbler.C69_go",
    "Bubbler.C69_java",
    "Bubbler.C69_java_enum",
    "Bubbler.C69_cs",
    "Bubbler.C69_js",
    "Bubbler.C69_kotlin",
    "Bubbler.C69_kotlin_enum",
    "Bubbler.C69_python"
   ],
   "note": "CommonJS and ES modules have the same initial values; C and C++ leave members uninitialised and are not included"
  },
  {
   "property": "C70",
   "status": "proved",
   "theorems": [
    "Bubbler.C70_read",
    "Bubbler.C70_accepted",
    "Bubbler.C70_go",
    "Bubbler.C70_c_setter",
    "Bubbler.C70_c_getter",
    "Bubbler.C70_cpp",
    "Bubbler.C70_csharp",
    "Bubbler.C70_java",
    "Bubbler.C70_js",
    "Bubbler.C70_python",
    "Bubbler.C70_float_close",
    "Bubbler.C70_float_exact",
    "Bubbler.C70_integers",
    "Bubbler.C70_float_counterexample"
   ],
   "note": "composition of C60, C61, C62 and C47; strconv.ParseFloat and %f are modelled by their results (correct rounding), over exact rationals; Kotlin and ES modules print floats in another way and are left out here (C47_kotlin covers Kotlin's expressions)"
  },
  {
   "property": "C71",
   "status": "proved",
   "theorems": [
    "Bubbler.C71_true",
    "Bubbler.C71_first",
    "Bubbler.C71_entry",
    "Bubbler.C71_imports",
    "Bubbler.C71_text"
   ],
   "note": "errors are modelled by their kinds and the files and names in them; positions and wording are not; which fault of its own text an error of the definitions names is the subject of C22-C28 and C67"
  },
  {
   "property": "C72",
   "status": "proved",
   "theorems": [
    "Bubbler.C72_lines",
    "Bubbler.C72_lines_no_first",
    "Bubbler.C72_single_no_first",
    "Bubbler.C72_content",
    "Bubbler.C72_nested",
    "Bubbler.C72_file",
    "Bubbler.C72_dedent",
    "Bubbler.C72_iterate",
    "Bubbler.C72_unquote",
    "Bubbler.C72_blank_counterexample"
   ],
   "note": "strings.ReplaceAll and strings.TrimRight of Go's library are modelled by their definition; slice is modelled for one-byte characters and unbounded integers"
  },
  {
   "property": "C73",
   "status": "proved",
   "theorems": [
    "Bubbler.C73_fixed",
    "Bubbler.C73_variable",
    "Bubbler.C73_dynamic_iff",
    "Bubbler.C73_shortest",
    "Bubbler.C73_decode_needs"
   ],
   "note": "all targets write the same two numbers; messages are those of Go's encoder (the other targets agree with it: C17, C46, C49, C50, C53, C54); Decode: definitions without a field that is directly a variable-length struct (finding 1)"
  },
  {
   "property": "C74",
   "status": "proved",
   "theorems": [
    "Bubbler.C74_same_run",
    "Bubbler.C74_true",
    "Bubbler.C74_once",
    "Bubbler.C74_order",
    "Bubbler.C74_silent",
    "Bubbler.C74_advice",
    "Bubbler.C74_repeat_counterexample"
   ],
   "note": "positions and the wording of messages are not modelled; \"once\" needs an accepted run (finding 79)"
  },
  {
   "property": "C75",
   "status": "proved",
   "theorems": [
    "Bubbler.C75_accepted_iff",
    "Bubbler.C75_definitions",
    "Bubbler.C75_source",
    "Bubbler.C75_clash_refused"
   ],
   "note": "for file systems whose files name different places (always so for parsed texts: C75_source); the rules use 64-bit sizes as the compiler does, and a written -1 counts as no number (finding 4); the correctness of method expressions is one flag here (their meaning: C47, C70)"
  },
  {
   "property": "C76",
   "status": "proved",
   "theorems": [
    "Bubbler.C76_one_message",
    "Bubbler.C76_exchange",
    "Bubbler.C76_unambiguous"
   ],
   "note": "under the conditions on definitions of C17, C46, C49, C50, C53 and C54, which the statement lists per language; definitions without a field that is directly a variable-length struct (finding 1); messages below 2^28 bytes"
  },
  {
   "property": "C77",
   "status": "proved",
   "theorems": [
    "Bubbler.C77_prefix",
    "Bubbler.C77_old_reader",
    "Bubbler.C77_new_reader",
    "Bubbler.C77_reserved_old_reader",
    "Bubbler.C77_reserved_message",
    "Bubbler.C77_reserved_new_reader",
    "Bubbler.C77_any_language",
    "Bubbler.C77_source"
   ],
   "note": "definitions without a field that is directly a variable-length struct (finding 1); reserved bits: old messages have zero in the new fields if these contain no constants"
  },
  {
   "property": "C78",
   "status": "proved",
   "theorems": [
    "Bubbler.C78_names_do_not_matter"
   ],
   "note": "structs the Go target supports"
  },
  {
   "property": "C79",
   "status": "proved",
   "theorems": [
    "Bubbler.C79_members",
    "Bubbler.C79_unnamed",
    "Bubbler.C79_names_only",
    "Bubbler.C79_fields",
    "Bubbler.C79_methods",
    "Bubbler.C79_codec",
    "Bubbler.C79_embedded_counterexample",
    "Bubbler.C79_reserved_counterexample",
    "Bubbler.C79_style_counterexample",
    "Bubbler.C79_getter_counterexample",
    "Bubbler.C79_item_counterexample",
    "Bubbler.C79_csharp_counterexample",
    "Bubbler.C79_python_counterexample",
    "Bubbler.C79_empty_counterexample"
   ],
   "note": "names of members only, made from the struct's own definition (in Go and C methods are declared again for a struct by every struct that embeds it, finding 31): overloads count once, keywords of the target languages are not modelled (finding 83)"
  },
  {
   "property": "C80",
   "status": "proved",
   "theorems": [
    "Bubbler.C80_types",
    "Bubbler.C80_c",
    "Bubbler.C80_style",
    "Bubbler.C80_guards",
    "Bubbler.C80_macros",
    "Bubbler.C80_value_counterexample",
    "Bubbler.C80_struct_counterexample",
    "Bubbler.C80_guard_counterexample",
    "Bubbler.C80_macro_counterexample",
    "Bubbler.C80_java_counterexample"
   ],
   "note": "names only; a definition is an enum of a file or a struct wherever it is written or mentioned; macros of the headers Bubbler writes, not those of the C library"
  },
  {
   "property": "C81",
   "status": "proved",
   "theorems": [
    "Bubbler.C81_js_size",
    "Bubbler.C81_js",
    "Bubbler.C81_js_size_any",
    "Bubbler.C81_js_numbers",
    "Bubbler.C81_java",
    "Bubbler.C81_csharp",
    "Bubbler.C81_kotlin",
    "Bubbler.C81_python_size",
    "Bubbler.C81_python",
    "Bubbler.C81_string_counterexample",
    "Bubbler.C81_python_counterexample"
   ],
   "note": "data below 2^28 bytes (JavaScript), 2^30 bytes (Java, C#, Kotlin) and 2^62 bytes (Python), C81_js_size_any, C81_js_numbers and C81_python_size for any data; definitions without a field that is directly a variable-length struct (finding 1), and the conditions per language that the statements list; further counterexamples: C50_int64_counterexample, C53_prefix_counterexample, C54_prefix_counterexample, C54_slice_counterexample, C54_float_counterexample, C49_exception_counterexample"
  },
  {
   "property": "C82",
   "status": "proved",
   "theorems": [
    "Bubbler.C82_members",
    "Bubbler.C82_go",
    "Bubbler.C82_globals",
    "Bubbler.C82_capitalized",
    "Bubbler.C82_globals_capitalized",
    "Bubbler.C82_names_capitalized",
    "Bubbler.C82_project",
    "Bubbler.C82_project_c_python",
    "Bubbler.C82_field_counterexample",
    "Bubbler.C82_type_counterexample",
    "Bubbler.C82_value_counterexample"
   ],
   "note": "the lists of keywords are written by hand for C11, C++20, C# 12, Go, Java 21, Kotlin (hard keywords), Python 3.12 and ECMAScript modules; in JavaScript any word may name a member, so there the statement is more than is needed; names of parameters, packages and namespaces are not treated"
  },
  {
   "property": "C83",
   "status": "proved",
   "theorems": [
    "Bubbler.C83_members",
    "Bubbler.C83_globals"
   ],
   "note": "that names in the source consist of letters, digits and underscores, and those of fields, methods and constants are uncapitalized, are hypotheses here: the lexer (C60) and the rules (C75) see to it; constants without a name: C79_empty_counterexample"
  }
 ]
}