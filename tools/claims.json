[
 {
  "property": "C01",
  "status": "proved",
  "theorems": [
   "Verif.Props.C01_prerelease_total_order"
  ],
  "note": ""
 },
 {
  "property": "C02",
  "status": "proved",
  "theorems": [
   "Verif.Props.C02_prerelease_precedence"
  ],
  "note": ""
 },
 {
  "property": "C03",
  "status": "proved",
  "theorems": [
   "Verif.Props.C03_build_total_order"
  ],
  "note": ""
 },
 {
  "property": "C04",
  "status": "proved",
  "theorems": [
   "Verif.Props.C04_version_total_order"
  ],
  "note": ""
 },
 {
  "property": "C05",
  "status": "proved",
  "theorems": [
   "Verif.Props.C05_matching_never_panics"
  ],
  "note": ""
 },
 {
  "property": "C06",
  "status": "proved",
  "theorems": [
   "Verif.Props.C06_exact"
  ],
  "note": ""
 },
 {
  "property": "C07",
  "status": "proved",
  "theorems": [
   "Verif.Props.C07_caret"
  ],
  "note": ""
 },
 {
  "property": "C08",
  "status": "proved",
  "theorems": [
   "Verif.Props.C08_tilde"
  ],
  "note": ""
 },
 {
  "property": "C09",
  "status": "proved",
  "theorems": [
   "Verif.Props.C09_inequalities"
  ],
  "note": ""
 },
 {
  "property": "C10",
  "status": "proved",
  "theorems": [
   "Verif.Props.C10_wildcards"
  ],
  "note": ""
 },
 {
  "property": "C11",
  "status": "proved",
  "theorems": [
   "Verif.Props.C11_requirement_is_conjunction",
   "Verif.Props.C11_conjunction_of_comparators",
   "Verif.Props.C11_comparator_matches"
  ],
  "note": ""
 },
 {
  "property": "C12",
  "status": "proved",
  "theorems": [
   "Verif.Props.C12_build_metadata_ignored"
  ],
  "note": ""
 },
 {
  "property": "C13",
  "status": "proved",
  "theorems": [
   "Verif.Props.C13_blank_is_caret"
  ],
  "note": ""
 },
 {
  "property": "C14",
  "status": "proved",
  "theorems": [
   "Verif.Props.C14_interval"
  ],
  "note": ""
 },
 {
  "property": "C15",
  "status": "proved",
  "theorems": [
   "Verif.Props.C15_version_display_parse"
  ],
  "note": ""
 },
 {
  "property": "C16",
  "status": "partial",
  "theorems": [
   "Verif.Props.C16_version_parse_display_partial",
   "Verif.Props.C16_counterexample",
   "Verif.Props.C16_exact"
  ],
  "note": "Full for builds with overflow checks; in release builds false on texts containing 429496729[6-9] (defect D1). C16_exact: it holds for an accepted text if and only if its numbers fit u32."
 },
 {
  "property": "C17",
  "status": "partial",
  "theorems": [
   "Verif.Props.C17_requirement_display_lossless_partial",
   "Verif.Props.C17_counterexample",
   "Verif.Props.C17_exact",
   "Verif.Props.C17_display_exact"
  ],
  "note": "Full for builds with overflow checks; in release builds false on texts containing 429496729[6-9] (defect D1). C17_exact: it holds for an accepted text if and only if its numbers fit u32; C17_display_exact says what is displayed otherwise."
 },
 {
  "property": "C18",
  "status": "partial",
  "theorems": [
   "Verif.Props.C18_requirement_alternate_display_partial",
   "Verif.Props.C18_alternate_is_trim",
   "Verif.Props.C17_counterexample"
  ],
  "note": "Full for builds with overflow checks; in release builds false on texts containing 429496729[6-9] (defect D1). C18_alternate_is_trim: in every build {:#} is {} without the spaces at the ends."
 },
 {
  "property": "C19",
  "status": "partial",
  "theorems": [
   "Verif.Props.C19_version_grammar_partial",
   "Verif.Props.C19_version_grammar_debug",
   "Verif.Props.C19_requirement_grammar_partial",
   "Verif.Props.C16_counterexample",
   "Verif.Props.C19_version_exact",
   "Verif.Props.C19_requirement_exact",
   "Verif.Props.C19_checked_is_grammar"
  ],
  "note": "Full for builds with overflow checks; in release builds false on texts containing 429496729[6-9] (defect D1). C19_version_exact/C19_requirement_exact: the exact accepted language and result in every build."
 },
 {
  "property": "C20",
  "status": "partial",
  "theorems": [
   "Verif.Props.C20_numbers_exact_or_rejected_partial",
   "Verif.Props.C20_accepted_is_written_partial",
   "Verif.Props.C20_counterexample",
   "Verif.Props.C20_modulo",
   "Verif.Props.C20_fitting_accepted",
   "Verif.Props.C20_wrapped_traps"
  ],
  "note": "False of the code for numbers whose decimal text starts with 429496729[6-9]: panics with overflow checks, wraps without (defect D1). C20_modulo: what is read is the written number modulo 2^32, in every build."
 },
 {
  "property": "C21",
  "status": "proved",
  "theorems": [
   "Verif.Props.C21_comparator_count"
  ],
  "note": ""
 },
 {
  "property": "C22",
  "status": "proved",
  "theorems": [
   "Verif.Props.C22_version_error_spans",
   "Verif.Props.C22_requirement_error_spans",
   "Verif.Props.C22_error_spans_bounds"
  ],
  "note": ""
 },
 {
  "property": "C23",
  "status": "proved",
  "theorems": [
   "Verif.Props.C23_wildcard_is_sole"
  ],
  "note": ""
 },
 {
  "property": "C24",
  "status": "partial",
  "theorems": [
   "Verif.Props.C24_no_panic_partial",
   "Verif.Props.C24_counterexample",
   "Verif.Props.C24_version_panics_iff",
   "Verif.Props.C24_requirement_panics_iff"
  ],
  "note": "False of the code in builds with overflow checks on texts containing 429496729[6-9] (defect D1); proved for everything else. C24_*_panics_iff: exactly which texts panic."
 },
 {
  "property": "C25",
  "status": "partial",
  "theorems": [
   "Verif.Props.C25_offsets_faithful_partial",
   "Verif.Props.C25_shift_invariance",
   "Verif.Props.C25_offsets_exact",
   "Verif.Props.C17_counterexample"
  ],
  "note": "Full for builds with overflow checks; in release builds false on texts containing 429496729[6-9] (defect D1). C25_offsets_exact: in every build all offsets point at what is written; only the recorded number may be the written one modulo 2^32."
 },
 {
  "property": "C26",
  "status": "proved",
  "theorems": [
   "Verif.Props.C26_version_tags",
   "Verif.Props.C26_requirement_tags",
   "Verif.Props.C26_tag_characters"
  ],
  "note": ""
 },
 {
  "property": "C27",
  "status": "proved",
  "theorems": [
   "Verif.Props.C27_faithful",
   "Verif.Props.C27_tags_are_valid"
  ],
  "note": "64-bit little-endian; provenance not modelled."
 },
 {
  "property": "C28",
  "status": "proved",
  "theorems": [
   "Verif.Props.C28_equality_is_text_equality"
  ],
  "note": ""
 },
 {
  "property": "C29",
  "status": "proved",
  "theorems": [
   "Verif.Props.C29_heap_discipline"
  ],
  "note": "Rust ownership (no use after move, drop once) is the machine's interface; allocator contract is the hypothesis."
 },
 {
  "property": "C30",
  "status": "proved",
  "theorems": [
   "Verif.Props.C30_total"
  ],
  "note": ""
 },
 {
  "property": "C31",
  "status": "proved",
  "theorems": [
   "Verif.Props.C31_ordered",
   "Verif.Props.C31_increasing"
  ],
  "note": "slices: C32_lossless/C34_positions"
 },
 {
  "property": "C32",
  "status": "proved",
  "theorems": [
   "Verif.Props.C32_lossless",
   "Verif.Props.C32_covered"
  ],
  "note": ""
 },
 {
  "property": "C33",
  "status": "proved",
  "theorems": [
   "Verif.Props.C33_accepts",
   "Verif.Props.C33_tokens",
   "Verif.Props.C33_unique",
   "Verif.Props.literal_verbatim",
   "Verif.Props.basic_verbatim"
  ],
  "note": ""
 },
 {
  "property": "C34",
  "status": "proved",
  "theorems": [
   "Verif.Props.C34_positions",
   "Verif.Props.C34_eof"
  ],
  "note": ""
 },
 {
  "property": "C35",
  "status": "proved",
  "theorems": [
   "Verif.Props.C35_decimal",
   "Verif.Props.C35_exact",
   "Verif.Props.C35_overflow_only"
  ],
  "note": "for both overflow-check modes and every position"
 },
 {
  "property": "C36",
  "status": "partial",
  "theorems": [
   "Verif.Props.C36_prefixed_partial",
   "Verif.Props.C36_modulo",
   "Verif.Props.C36_counterexample",
   "Verif.Props.C36_exact",
   "Verif.Props.C36_right_iff"
  ],
  "note": "False in the code for values >= 2^63: they wrap silently (0xffffffffffffffff is -1); proved: exact below 2^63, and equal modulo 2^64 always. C36_exact: every prefixed literal is accepted and read modulo 2^64; C36_right_iff: right if and only if below 2^63."
 },
 {
  "property": "C37",
  "status": "proved",
  "theorems": [
   "Verif.Props.C37_underscores"
  ],
  "note": ""
 },
 {
  "property": "C38",
  "status": "proved",
  "theorems": [
   "Verif.Props.C38_float"
  ],
  "note": "conversion of the cleaned text to a double is std and not modelled"
 },
 {
  "property": "C39",
  "status": "proved",
  "theorems": [
   "Verif.Props.C39_valid",
   "Verif.Props.C39_valid_date"
  ],
  "note": ""
 },
 {
  "property": "C40",
  "status": "proved",
  "theorems": [
   "Verif.Props.C40_accepts",
   "Verif.Props.C40_round_trip"
  ],
  "note": "T separator; date and time separated by a blank are joined by the document parser"
 },
 {
  "property": "C41",
  "status": "partial",
  "theorems": [
   "Verif.Props.C41_no_junk_partial",
   "Verif.Props.C41_date",
   "Verif.Props.C41_counterexample",
   "Verif.Props.C41_exact"
  ],
  "note": "False in the code behind an offset (1979-05-27T07:32:00Zjunk is accepted); proved everywhere else. C41_exact: which literals without underscores are read as which date-time."
 },
 {
  "property": "C42",
  "status": "partial",
  "theorems": [
   "Verif.Props.C42_no_underscore_partial",
   "Verif.Props.C42_counterexample",
   "Verif.Props.C42_exact"
  ],
  "note": "False in the code for the year and the hour of a local time (1_:30:00); proved everywhere else. C42_exact: exactly which literals are read as which date-time, in every build."
 },
 {
  "property": "C43",
  "status": "partial",
  "theorems": [
   "Verif.Props.C43_special_partial",
   "Verif.Props.C43_accepts",
   "Verif.Props.C43_counterexample",
   "Verif.Props.C43_exact"
  ],
  "note": "False in the code for +Inf, -Inf, +Nan, -Nan; proved that these are the only exceptions. C43_exact: exactly which literals are read as infinity or NaN."
 },
 {
  "property": "C44",
  "status": "proved",
  "theorems": [
   "Verif.Props.C44_no_panic"
  ],
  "note": "empty literals are excluded: the tokenizer never produces one"
 },
 {
  "property": "C45",
  "status": "proved",
  "theorems": [
   "Verif.Props.C45_map",
   "Verif.Props.C45_value",
   "Verif.Props.C45_text"
  ],
  "note": "For every tree of the parser (and every text of the grammar) without contradictory definitions, the map has a scalar, array or table at a location exactly if the document says so (Spec/Map.lean: docDefs, Says), including nested values, dotted keys, sections and arrays of tables; each assignment's value is found at its key in its section."
 },
 {
  "property": "C46",
  "status": "proved",
  "theorems": [
   "Verif.Props.C46_reported",
   "Verif.Props.C46_text",
   "Verif.Props.C46_first_wins",
   "Verif.Props.C46_first_wins_section",
   "Verif.Props.C46_first_wins_inline",
   "Verif.Props.C46_assignment",
   "Verif.Props.C46_assignment_section",
   "Verif.Props.C46_assignment_inline",
   "Verif.Props.C46_header",
   "Verif.Props.C46_array_header",
   "Verif.Props.C46_liberal"
  ],
  "note": "Diagnostics exactly if two definitions of a location are incompatible (Compatible follows TOML except that a dotted key may extend a table on the way of an array header, as the code does: C46_liberal). In any state, also behind other mistakes, a refused key gives exactly one diagnostic and changes nothing; a later part never removes or changes an earlier definition."
 },
 {
  "property": "C47",
  "status": "proved",
  "theorems": [
   "Verif.Props.C47_map",
   "Verif.Props.C47_tree",
   "Verif.Props.C47_lookup"
  ],
  "note": "For every text that the parser returns a tree for (with or without mistakes) mapping does not panic, every representation points to its name in its key, every parent reference to the representation it belongs to (Spec/MapRepr.lean), and context lines and paths can be computed for every entry."
 },
 {
  "property": "C48",
  "status": "proved",
  "theorems": [
   "Verif.Props.C48_length",
   "Verif.Props.C48_order",
   "Verif.Props.C48_last",
   "Verif.Props.C45_map"
  ],
  "note": "For a name x; headers with several names are covered by C45_map, whose specification (wayDefs) sends them to the last entry of each array on the way."
 },
 {
  "property": "C49",
  "status": "proved",
  "theorems": [
   "Verif.Props.C49_check",
   "Verif.Props.C49_source",
   "Verif.Props.C49_version",
   "Verif.Props.C49_other",
   "Verif.Props.C49_contradictions",
   "Verif.Props.C49_reported",
   "Verif.Props.C49_package"
  ],
  "note": "For the map of any text, in any order of its entries: dependencies and diagnostics are exactly those of Spec/Check (each once); the source is the one of the decision table Source, which has exactly one answer; contradictions are reported exactly once per key. A result with overflow checks is the same as without; that there is a result is C74. Spec records that git+path reports the git+registry kind (defect). The package of a dependency is the string of its `package` key, and otherwise its name."
 },
 {
  "property": "C50",
  "status": "proved",
  "theorems": [
   "Verif.Props.C50_order",
   "Verif.Props.C50_order_release",
   "Verif.Props.C50_messages",
   "Verif.Props.C50_panics"
  ],
  "note": "Orders of the entries of every table in the map; whether the check panics (C74) does not depend on the order either."
 },
 {
  "property": "C51",
  "status": "proved",
  "theorems": [
   "Verif.Props.C51_unknown",
   "Verif.Props.C51_reported"
  ],
  "note": "Document, target tables and dependencies; one warning per representation of the unknown key, and none for known keys."
 },
 {
  "property": "C52",
  "status": "proved",
  "theorems": [
   "Verif.Props.C52_reset",
   "Verif.Props.C52_nested",
   "Verif.Props.C52_collect"
  ],
  "note": ""
 },
 {
  "property": "C53",
  "status": "proved",
  "theorems": [
   "Verif.Props.C53_sort",
   "Verif.Props.C53_ordered",
   "Verif.Props.C53_unique"
  ],
  "note": "slice::sort_by is modelled as a stable sort; the result of a stable sort is proved unique"
 },
 {
  "property": "C54",
  "status": "proved",
  "theorems": [
   "Verif.Props.C54_lines",
   "Verif.Props.C54_count"
  ],
  "note": ""
 },
 {
  "property": "C55",
  "status": "proved",
  "theorems": [
   "Verif.Props.C55_total",
   "Verif.Props.C55_order"
  ],
  "note": ""
 },
 {
  "property": "C56",
  "status": "proved",
  "theorems": [
   "Verif.Props.C56_parse",
   "Verif.Props.C56_sorted"
  ],
  "note": "serde_json is a parameter of the model"
 },
 {
  "property": "C57",
  "status": "proved",
  "theorems": [
   "Verif.Props.C57_url",
   "Verif.Props.C57_panics",
   "Verif.Props.C57_index_url"
  ],
  "note": ""
 },
 {
  "property": "C58",
  "status": "proved",
  "theorems": [
   "Verif.Props.C58_terminates",
   "Verif.Props.C58_consumes"
  ],
  "note": ""
 },
 {
  "property": "C59",
  "status": "proved",
  "theorems": [
   "Verif.Props.C59_nesting",
   "Verif.Props.C59_reported",
   "Verif.Props.C59_grammar",
   "Verif.Props.C58_terminates"
  ],
  "note": ""
 },
 {
  "property": "C60",
  "status": "partial",
  "theorems": [
   "Verif.Props.C60_no_panic_partial",
   "Verif.Props.C60_no_multiline_partial",
   "Verif.Props.C60_valid_partial",
   "Verif.Props.C60_counterexample",
   "Verif.Props.C60_checked_counterexample"
  ],
  "note": "False in the code; proved for all texts that follow the grammar, and for all texts without a pair of brackets split over lines, e.g. all texts without multi-line strings."
 },
 {
  "property": "C61",
  "status": "proved",
  "theorems": [
   "Verif.Props.C61_spans"
  ],
  "note": ""
 },
 {
  "property": "C62",
  "status": "proved",
  "theorems": [
   "Verif.Props.C62_bool"
  ],
  "note": ""
 },
 {
  "property": "C63",
  "status": "partial",
  "theorems": [
   "Verif.Props.C63_places_partial",
   "Verif.Props.C63_ascii",
   "Verif.Props.C63_counterexample",
   "Verif.Props.C63_exact"
  ],
  "note": "False in the code for control characters in comments; proved that this is the only exception. C63_exact: which diagnostics are at character boundaries, for all texts."
 },
 {
  "property": "C64",
  "status": "partial",
  "theorems": [
   "Verif.Props.C64_text_span_partial",
   "Verif.Props.C68_tree_in_text",
   "Verif.Props.C64_counterexample",
   "Verif.Props.C64_exact"
  ],
  "note": "Strings: false in the code for a line break behind the opening delimiter (and for multi-line strings with 256 or more closing quotes); proved otherwise (C64_text_span_partial). Keys: the place of the text of every identifier of the tree is exactly the place of what is between its quotes, for every text (`IdentAt` in C68_tree_in_text). C64_exact: the computed place for every string, and exactly when it is right."
 },
 {
  "property": "C65",
  "status": "proved",
  "theorems": [
   "Verif.Props.C65_no_panic",
   "Verif.Props.C65_body",
   "Verif.Props.C65_header",
   "Verif.Props.C65_body_lines",
   "Verif.Props.C65_plain",
   "Verif.Props.C65_hint",
   "Verif.Props.C65_width",
   "Verif.Props.C65_aligned",
   "Verif.Props.C65_panics_iff",
   "Verif.Props.C65_piece"
  ],
  "note": "unicode_width is a parameter of the model; exact output for spans of one or several lines, with context lines and hint; the width is the sum of the widths of the parts between hidden characters, so that the underline is aligned if widths add up; C65_panics_iff says exactly when rendering panics, for all diagnostics and context lines"
 },
 {
  "property": "C66",
  "status": "partial",
  "theorems": [
   "Verif.Props.C66_lexer_partial",
   "Verif.Props.C66_shown_iff",
   "Verif.Props.C66_counterexample"
  ],
  "note": "False in the code for texts with carriage returns; proved for texts without them, apart from control characters in non-ASCII comments (C63). C66_shown_iff holds for all texts: a diagnostic can be shown exactly if its span is a piece of the text that neither starts nor ends inside of a line break."
 },
 {
  "property": "C67",
  "status": "proved",
  "theorems": [
   "Verif.Props.C67_fmtStr"
  ],
  "note": ""
 },
 {
  "property": "C68",
  "status": "proved",
  "theorems": [
   "Verif.Props.C68_tree_in_text"
  ],
  "note": "The places of the closing brackets of headers need them to be on the line of the opening ones (see C60). Includes the place of the text of keys."
 },
 {
  "property": "C69",
  "status": "proved",
  "theorems": [
   "Verif.Props.C69_diagnostics",
   "Verif.Props.C69_open_bracket"
  ],
  "note": ""
 },
 {
  "property": "C70",
  "status": "proved",
  "theorems": [
   "Verif.Props.C70_comments_in_text",
   "Verif.Props.C70_comments_kept",
   "Verif.Props.C68_tree_in_text"
  ],
  "note": ""
 },
 {
  "property": "C71",
  "status": "proved",
  "theorems": [
   "Verif.Props.C71_grammar"
  ],
  "note": "The grammar is TOML 1.0 with the liberties of the code that are stated in Spec/Grammar.lean and Spec/TomlLit.lean (and refuted as strict claims under C36, C41, C42, C43)."
 },
 {
  "property": "C72",
  "status": "proved",
  "theorems": [
   "Verif.Props.C72_items",
   "Verif.Props.C72_unambiguous"
  ],
  "note": ""
 },
 {
  "property": "C74",
  "status": "partial",
  "theorems": [
   "Verif.Props.C74_no_panic_partial",
   "Verif.Props.C74_no_panic_release",
   "Verif.Props.C74_counterexample",
   "Verif.Props.C74_panics_iff",
   "Verif.Props.C74_no_panic_reads"
  ],
  "note": "C74_panics_iff: exactly when the check panics, for every text, build and order of the tables: in builds with overflow checks, if a version requirement that is read has a number that overflows in the version parser (defect D1). Hence no panic without overflow checks. The full statement is false: C74_counterexample."
 },
 {
  "property": "C75",
  "status": "proved",
  "theorems": [
   "Verif.Props.C75_map_in_text"
  ],
  "note": "The place of a closing bracket of a header is right if no header is split by a multi-line string (as in C68)."
 },
 {
  "property": "C73",
  "status": "proved",
  "theorems": [
   "Verif.Props.C73_errors",
   "Verif.Props.C73_tree"
  ],
  "note": "Spec/MapErrors.lean: each diagnostic is about an entry of the final map at the shown location, a representation of the entry, and a key of the document with the same name in the same table; the context lines are exactly the lines of the names around both."
 },
 {
  "property": "C76",
  "status": "proved",
  "theorems": [
   "Verif.Props.C76_order",
   "Verif.Props.C76_assignment_spans",
   "Verif.Props.C76_spans",
   "Verif.Props.C76_counterexample"
  ],
  "note": "The closing brackets of headers and the ranges of tables are covered unless a multi-line string stands between two brackets (the code computes the place of the closing bracket from the column of the token, cf. C60); C76_counterexample shows the premise is needed."
 },
 {
  "property": "C77",
  "status": "proved",
  "theorems": [
   "Verif.Props.C77_text",
   "Verif.Props.C77_any",
   "Verif.Props.C77_datatype"
  ],
  "note": ""
 },
 {
  "property": "C78",
  "status": "partial",
  "theorems": [
   "Verif.Props.C78_validate_partial",
   "Verif.Props.C78_text_partial",
   "Verif.Props.C78_clean",
   "Verif.Props.C78_values",
   "Verif.Props.C78_counterexample",
   "Verif.Props.C78_arguments",
   "Verif.Props.C78_prints",
   "Verif.Props.C78_panics_iff"
  ],
  "note": "That nothing is printed exactly for valid documents, and the printed values, hold for all texts (C78_clean, C78_values). That the program does not panic and prints everything holds for texts without carriage returns, without multi-line strings between brackets, and without control characters in comments behind non-ASCII characters; it is false in general: C78_counterexample. For every text: what is printed if the program does not panic (C78_prints), and exactly when it panics (C78_panics_iff)."
 },
 {
  "property": "C79",
  "status": "partial",
  "theorems": [
   "Verif.Props.C79_check_partial",
   "Verif.Props.C79_text_partial",
   "Verif.Props.C79_clean",
   "Verif.Props.C79_counterexample",
   "Verif.Props.C78_arguments",
   "Verif.Props.C79_severity",
   "Verif.Props.C79_prints",
   "Verif.Props.C79_panics_iff"
  ],
  "note": "As C78; the version requirements have to be written on one line and without backslashes, and with overflow checks none that is read may have a number of C20. False in general: C79_counterexample. C79_clean holds for every text and build. For every text, build and order: what is printed if the program does not panic (C79_prints), and exactly when it panics (C79_panics_iff)."
 },
 {
  "property": "C80",
  "status": "partial",
  "theorems": [
   "Verif.Props.C80_diagnostics",
   "Verif.Props.C80_shown_partial",
   "Verif.Props.C80_text_partial",
   "Verif.Props.C80_clean",
   "Verif.Props.C80_published",
   "Verif.Props.C80_counterexample",
   "Verif.Props.C80_severity_counterexample",
   "Verif.Props.C80_panics_iff",
   "Verif.Props.C80_shown_iff"
  ],
  "note": "Whenever the plugin returns, it returns exactly the diagnostics (C80_diagnostics, C80_clean, all buffers). C80_panics_iff: when it panics. Valid ranges need the premises of C79 except the one about carriage returns; false in general: C80_counterexample. The Lua part gives warnings the severity of errors: C80_severity_counterexample. C80_shown_iff: exactly which diagnostics have a valid range, for all buffers."
 },
 {
  "property": "C81",
  "status": "proved",
  "theorems": [
   "Verif.Props.C81_texts",
   "Verif.Props.C81_messages"
  ],
  "note": "The Debug format of the plain values and the timings are not modelled."
 },
 {
  "property": "C82",
  "status": "proved",
  "theorems": [
   "Verif.Props.C82_line",
   "Verif.Props.C82_every_build",
   "Verif.Props.C82_unique",
   "Verif.Props.C82_no_panic",
   "Verif.Props.C82_unknown",
   "Verif.Props.C82_file"
  ],
  "note": "The JSON reader (text to tree) is a parameter. Exact in every build; without overflow checks the versions and requirements with wrapped numbers (D1) are accepted in addition."
 },
 {
  "property": "C83",
  "status": "proved",
  "theorems": [
   "Verif.Props.C83_fetch",
   "Verif.Props.C83_ok",
   "Verif.Props.C83_no_panic"
  ],
  "note": "The server, the check of the URI and the JSON reader are parameters."
 },
 {
  "property": "C84",
  "status": "proved",
  "theorems": [
   "Verif.Props.C84_version",
   "Verif.Props.C84_requirement",
   "Verif.Props.C84_requirement_every_build"
  ],
  "note": "Every build; the text is the very text read, except (without overflow checks) where numbers wrapped (D1): then it has the same length."
 },
 {
  "property": "C85",
  "status": "proved",
  "theorems": [
   "Verif.Props.C85_history",
   "Verif.Props.C85_ends",
   "Verif.Props.C85_unchecked"
  ],
  "note": "The unsafe constructor is excluded from the histories; C85_unchecked shows why it is unsafe."
 },
 {
  "property": "C86",
  "status": "proved",
  "theorems": [
   "Verif.Props.C86_damaged",
   "Verif.Props.C86_no_panic"
  ],
  "note": "Which damage is covered is in Spec/Damage.lean (AnyLine); an example shows that an unclosed array does hide the next line. The right lines use the nesting limit of 99 brackets that holds in tables."
 },
 {
  "property": "C87",
  "status": "proved",
  "theorems": [
   "Verif.Props.C17_display_parse",
   "Verif.Props.C17_display_exact",
   "Verif.Props.C18_alternate_is_trim"
  ],
  "note": ""
 },
 {
  "property": "C88",
  "status": "partial",
  "theorems": [
   "Verif.Props.C88_right_partial",
   "Verif.Props.C88_no_panic",
   "Verif.Props.C88_counterexample_exponent",
   "Verif.Props.C88_counterexample_hour",
   "Verif.Props.C88_counterexample_fraction"
  ],
  "note": "False as stated for three kinds, whose meaning is weakened in Spec/LitTruth.lean: `1e` is said to overflow though only the digits of the exponent are missing, `123:00` is said to lack digits of the hour though it has three, and a missing fraction of a second is reported at the end of the literal."
 },
 {
  "property": "C89",
  "status": "partial",
  "theorems": [
   "Verif.Props.C89_version_partial",
   "Verif.Props.C89_requirement_partial",
   "Verif.Props.C89_number_names",
   "Verif.Props.C89_counterexample_tag",
   "Verif.Props.C89_counterexample_trailing"
  ],
  "note": "Proved for every text and build: the error is about a fault that the text has at the covered place, with the complete shape of the text in front of it, and stores the part of the version that is there. False in the code: the names of the two tags are swapped in the message texts, and the message about trailing characters always names a wrong part (counterexamples)."
 },
 {
  "property": "C90",
  "status": "partial",
  "theorems": [
   "Verif.Props.C90_truth_partial",
   "Verif.Props.C90_missing_quote",
   "Verif.Props.C90_escape",
   "Verif.Props.C90_codepoint",
   "Verif.Props.C90_counterexample_comment",
   "Verif.Props.C90_counterexample_quotes"
  ],
  "note": "Proved for every document and every kind of diagnostic: the diagnostic is a true statement about the marked text and what is in front of and behind it, including that the place is inside of an unclosed string. False in the code: the diagnostic about a control character in a comment marks the character in front of it, and the one about excess quotes marks one quote that is allowed (counterexamples)."
 },
 {
  "property": "C91",
  "status": "partial",
  "theorems": [
   "Verif.Props.C91_truth_partial",
   "Verif.Props.C91_unclosed_curly",
   "Verif.Props.C91_nesting",
   "Verif.Props.C91_counterexample_curly",
   "Verif.Props.C91_counterexample_comma"
  ],
  "note": "Proved for every document and every kind of diagnostic the parser gives, against a separate specification of what each message claims about the tokens of the text. False in the code: a closing curly bracket is called `{`, and the comma marked as trailing in an inline table can be one in front of the last (counterexamples)."
 },
 {
  "property": "C92",
  "status": "proved",
  "theorems": [
   "Verif.Props.C92_entries",
   "Verif.Props.C92_no_panic",
   "Verif.Props.C92_lines",
   "Verif.Props.soft_of_val"
  ],
  "note": "Which faults are covered, and the extent of each, is in Spec/Soft.lean. soft_of_val and C92_lines show that all values of the grammar and all documents of C86 are among the documents of C92. The lines use the nesting limit of 99 brackets that holds in tables."
 },
 {
  "property": "C93",
  "status": "partial",
  "theorems": [
   "Verif.Props.C93_lines",
   "Verif.Props.C93_items",
   "Verif.Props.C93_assignment_partial",
   "Verif.Props.C93_header",
   "Verif.Props.C93_own_line",
   "Verif.Props.C93_free",
   "Verif.Props.C93_counterexample_level",
   "Verif.Props.C93_counterexample_entry"
  ],
  "note": "Proved for all texts without diagnostics: which comments each header and assignment has, in which order, and what becomes of every comment on its own line. False in the code (counterexamples proved): the comment behind an assignment in a table has level 0; a comment above an entry of an array is marked as above it but is not among its comments. How the comments inside of a value are marked is not claimed."
 },
 {
  "property": "C94",
  "status": "proved",
  "theorems": [
   "Verif.Props.C94_array",
   "Verif.Props.C94_order",
   "Verif.Props.C94_free",
   "Verif.Props.C94_text"
  ],
  "note": "Arrays without a closing bracket are not claimed about. Which of these comments belong to which entry of the array is not part of this property (see C93_counterexample_entry)."
 },
 {
  "property": "C95",
  "status": "partial",
  "theorems": [
   "Verif.Props.C95_safe_partial",
   "Verif.Props.C95_freed",
   "Verif.Props.C95_counterexample",
   "Verif.Props.C95_fault"
  ],
  "note": "Proved for all histories in which the function given to parse_with returns a text of the arena it was given (or panics); an arena whose parsing panics is never freed (its number is part of the theorem). False in the code otherwise (counterexample proved): safe code can return a text of its own, free it and read it through the container. References that the function stores elsewhere are not modelled."
 },
 {
  "property": "C96",
  "status": "partial",
  "theorems": [
   "Verif.Props.C96_place",
   "Verif.Props.C96_line_end",
   "Verif.Props.C96_free",
   "Verif.Props.C96_above_partial",
   "Verif.Props.C96_entry",
   "Verif.Props.C96_counterexample_inner",
   "Verif.Props.C96_counterexample_entry"
  ],
  "note": "Proved for all texts without diagnostics: which comments are marked as line-end comments, that free comments stand alone on their line, and that every comment marked as above something is above a header, an assignment or an entry with only comments in between; and that a comment alone on the line above an entry is marked if no further comment follows up to the end of the entry. False in the code (counterexamples proved): a comment inside of the brackets of an entry is marked as above the next entry on the line of the closing bracket; a comment directly above an entry with a comment in it is not marked."
 },
 {
  "property": "C97",
  "status": "proved",
  "theorems": [
   "Verif.Props.C97_assignment",
   "Verif.Props.C97_header",
   "Verif.Props.C97_array",
   "Verif.Props.C97_entry",
   "Verif.Props.C97_level"
  ],
  "note": "For every text that is parsed, also with mistakes. The comments that are marked as above are not covered by the statement: the example deepToml shows that the code gives them another level in nested arrays."
 },
 {
  "property": "C98",
  "status": "proved",
  "theorems": [
   "Verif.Props.C98_entry",
   "Verif.Props.C98_unique",
   "Verif.Props.C98_order"
  ],
  "note": "For texts without diagnostics; comments that are marked as above something are the subject of C96."
 },
 {
  "property": "C99",
  "status": "proved",
  "theorems": [
   "Verif.Props.C99_parts",
   "Verif.Props.C99_tree",
   "Verif.Props.C99_all",
   "Verif.Props.C99_count"
  ],
  "note": "A header without a name is not a part: the parser reports it and the map ignores it with its assignments. Which names may be rejected and why is C46 and C73; here: each rejection is reported once, in order, and everything else is stored."
 },
 {
  "property": "C100",
  "status": "partial",
  "theorems": [
   "Verif.Props.C100_quotes",
   "Verif.Props.C100_found",
   "Verif.Props.C100_names",
   "Verif.Props.C100_string_kind",
   "Verif.Props.C100_hint_partial",
   "Verif.Props.C100_counterexample_hint",
   "Verif.Props.C100_hex_prefix",
   "Verif.Props.C100_codepoint",
   "Verif.Props.C100_semver_quotes",
   "Verif.Props.C100_semver_names",
   "Verif.Props.C100_error_quotes",
   "Verif.Props.C100_types",
   "Verif.Props.C100_warning_quotes"
  ],
  "note": "False in the code for one hint: the hint of CannotExtendTableWithDottedKey calls the table an array (C100_counterexample_hint). The names of the two tags of a version are swapped in messages (C89_counterexample_tag), so they are not part of semverNames. The warning about a dependency without a source does not name the entry, and is not asked to. That what a diagnostic stores is true of the text is C73, C88-C91."
 },
 {
  "property": "C101",
  "status": "proved",
  "theorems": [
   "Verif.Props.C101_strings",
   "Verif.Props.C101_booleans",
   "Verif.Props.C101_features"
  ],
  "note": "For the map of any text in any order of its tables. KeepsStr and KeepsBool list what a dependency keeps, AssignedAt says where it stands."
 },
 {
  "property": "C102",
  "status": "proved",
  "theorems": [
   "Verif.Props.C102_asDep",
   "Verif.Props.C102_isDep",
   "Verif.Props.C102_isDepFeature",
   "Verif.Props.C102_isWeak",
   "Verif.Props.C102_forms",
   "Verif.Props.C102_unambiguous",
   "Verif.Props.C102_groups"
  ],
  "note": "The names of packages and features are only assumed to have none of the characters slash, colon and question mark."
 },
 {
  "property": "C103",
  "status": "proved",
  "theorems": [
   "Verif.Props.C103_inclusions",
   "Verif.Props.C103_order",
   "Verif.Props.C103_monotone",
   "Verif.Props.C103_same_comparators",
   "Verif.Props.C103_narrowing",
   "Verif.Props.C103_narrowing_not_for_prereleases"
  ],
  "note": "Narrowing is claimed for releases only; the last theorem shows a prerelease that an added comparator lets in, which is the documented opt-in rule."
 },
 {
  "property": "C104",
  "status": "proved",
  "theorems": [
   "Verif.Props.C104_not_beyond",
   "Verif.Props.C104_within",
   "Verif.Props.C104_witness"
  ],
  "note": "Stated about the function that makes the value of a literal, for every state of the parser; C104_witness shows the effect on whole documents. That the parser takes the next literal at all is recovery, not TOML."
 },
 {
  "property": "C105",
  "status": "proved",
  "theorems": [
   "Verif.Props.C105_tokens",
   "Verif.Props.C105_contents",
   "Verif.Props.C105_string"
  ],
  "note": "The bound on the decoded contents is for texts without lexical diagnostics."
 },
 {
  "property": "C106",
  "status": "proved",
  "theorems": [
   "Verif.Props.C106_agree",
   "Verif.Props.C106_not_comparable"
  ],
  "note": "Build metadata is left out on both sides: it counts in the order of versions but not in requirements (C12)."
 },
 {
  "property": "C107",
  "status": "proved",
  "theorems": [
   "Verif.Props.C107_self",
   "Verif.Props.C107_transitive",
   "Verif.Props.C107_antisymmetric",
   "Verif.Props.C107_same_leading"
  ],
  "note": "Transitivity and antisymmetry are claimed for releases."
 }
]