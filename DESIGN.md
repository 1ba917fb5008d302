# Formal model of Saecki/crates-nvim-rs in Lean 4

Layout: `lean/Verif/<area>/*.lean` are the model (files named after the Rust source) and the proofs;
`lean/Verif/Spec/*.lean` are the specifications, which do not refer to the functions of the model (they use
its data types where a statement is about them); `lean/Verif/Props/*.lean` are the property theorems only,
each with a concrete case that meets its hypotheses.  `properties.jsonl` is written by `tools/props.py`,
`MANIFEST.json` by `tools/manifest.py`, this file by `tools/design.py`; `tools/mutate.py` runs the wrong
programs of `seeded/LOG.jsonl`.

## Trusted base

* Lean's kernel, and the axioms `propext`, `Classical.choice`, `Quot.sound`; no theorem of MANIFEST.json uses
  another one (no added axioms, no compiled evaluation; concrete cases are evaluated by the kernel).
* The reading of the Rust code: every definition of the model cites file and lines.  The Rust code was not run.
  The reading was tested against what the project itself recorded of its behaviour (these are tests, no proofs):
  `tools/conform/fixtures.py` runs the model on the documents behind the 353 snapshots of
  `crates/toml/tests/fixtures/invalid` (rebuilt from the lines they show) and gets all 353 outputs byte for byte;
  `tools/conform/unit.py` reads the unit tests of the TOML, semver and ide crates with a small interpreter for the
  part of Rust they use, and the model gives the expected value in all of their cases.
* The conventions:
  * A `&str` is a list of characters, a byte offset is a sum of `Char.utf8Size`; slicing off a character
    boundary or out of range is the explicit outcome `panic`.
  * `&mut` state is passed and returned.  Loops are structural recursion or recursion on fuel; where there is
    fuel, a theorem gives a sufficient amount for every input (C58), so `timeout` is not an outcome.
  * `unreachable!`, `expect`, `todo!`, failing slices, integer overflow with overflow checks are `panic`,
    distinct from an error of the program.
  * Offsets, lines, columns and lengths are unbounded natural numbers: the statements are about texts of less
    than 4 GiB.  Machine arithmetic is modelled exactly where a property is about it: the numbers of versions
    (`u32`, both overflow modes), TOML integers (`i64`, both modes), `NonZeroU32` of headers, the `u8`
    truncation of `end_char`, the words of `InlineStr`.
* Assumed of the environment, as parameters or definitions of the model:
  * `f64::from_str` (std) is a parameter; only the text that is given to it is stated.
  * `slice::sort_by` is a stable sort (the result of one is proved unique, C53).
  * `HashMap` iterates over its entries in some order: the model keeps a list of entries, and C50 quantifies
    over all orders; `HashMap::insert`/`get` are lookup by key.
  * The reader of `serde_json` is a parameter that gives a JSON tree or an error (C56, C82, C83); the code derived by
    `serde` is modelled on trees, as if the whole line was read first (which is not observable, since an error is an
    error in both). The server and the syntax check of URIs are parameters (C83). `unicode_width` is a parameter
    (C65).
  * The allocator returns aligned addresses that are not in use (C29); 64 bits, little endian.
  * `char::is_whitespace`/`is_control` and the ASCII predicates are defined from the documentation of std.

## What is modelled

| Rust source | Lean model | Not modelled |
|---|---|---|
| `crates/semver/src/lib.rs` | `Semver/Types`, `Semver/Order` | `Hash`, `Debug` |
| `crates/semver/src/eval.rs` | `Semver/Eval` | |
| `crates/semver/src/parse.rs` | `Semver/Parse` | |
| `crates/semver/src/display.rs` | `Semver/Display` | `{:width$}` limits of newer toolchains |
| `crates/semver/src/inlinestr.rs` | `Semver/InlineStr` | pointer provenance, big endian, 32 bits |
| `crates/semver/src/error.rs` | kinds and spans in `Semver/Parse`, texts in `Semver/ErrorText` | |
| `crates/toml/src/lex.rs` | `Toml/Lex`, `Toml/Types` | |
| `crates/toml/src/parse.rs` | `Toml/Ast`, `Toml/Parse` | `Debug` |
| `crates/toml/src/parse/{lit,num,datetime}.rs`, `datetime.rs` | `Toml/Lit`, `Toml/Num`, `Toml/DateTime` | `f64::from_str` |
| `crates/toml/src/map.rs` | `Toml/Map` | |
| `crates/toml/src/error.rs` | kinds and spans in `Toml/Types`, texts, hints and context lines in `Toml/ErrorText` | |
| `crates/toml/src/util.rs` | `Toml/Simple` | `Debug` of the values |
| `crates/toml/src/container.rs` | `Toml/Container` | lifetimes, as far as the type checker enforces them; what is in the arena besides texts |
| `crates/common/src/lib.rs`, `diagnostic.rs` | `Common/*`, `Diag/Model` | terminal colours are fixed texts |
| `crates/ide/src/check.rs`, `cargo.rs`, `error.rs` | `Ide/Check`, accessors in `Ide/Access`, texts in `Ide/ErrorText` | |
| `crates/ide/src/index.rs`, `index/fetch.rs` | `Diag/Index`, predicates of `FeatureMember` in `Diag/Member`, derived `Deserialize` in `Diag/Json`, requests in `Diag/Fetch` | the HTTP client, the JSON reader, time |
| `crates/semver/src/serde.rs` | `Diag/Json` | |
| `crates/toml/src/onevec.rs` | `Toml/OneVec` | iterators |
| `crates/cli/src/main.rs` | `Cli/Model`, and the display of a diagnostic in `Diag/Model` | the file system; timings that are printed |
| `crates/nvim/src/lib.rs`, `lua/crates_nvim.lua` | `Nvim/Model` | the Neovim API; lines that are not UTF-8 |

Fidelity notes on single definitions are in their comments ("Simplification: …").

## Defects of the code that the proofs met

Each makes a natural statement false; where there is a property about it, the claim is partial and the witness is
a theorem.

* D1 `semver` `parse_int`: `checked_mul(10)` and then unchecked `val + digit`: numbers that start with
  4294967296 to 4294967299 panic (overflow checks) or wrap (release). `C16/C17/C20/C24_counterexample`; in the
  check of a manifest `C74_counterexample`.
* D2 TOML integers with a prefix wrap: `0xffffffffffffffff` is -1. `C36_counterexample`.
* D3 Anything is accepted behind the offset of a date-time (`…Zjunk`). `C41_counterexample`.
* D4 Underscores in the year and in the hour of a local time are accepted. `C42_counterexample`.
* D5 `+Inf`, `-Inf`, `+Nan`, `-Nan` are accepted. `C43_counterexample`.
* D6 The parser panics on a header that is split by a multi-line string: `   ["""\n"""]` in every build, `    ["""\n"""]` with overflow checks (without, the bracket is then placed on the wrong line). `C60_counterexample`, `C60_checked_counterexample`.
* D7 `TextOffset::apply_to`: wrong column for a string that starts with a line break; `u8` truncation at 253 or
  more excessive quotes. `C64_counterexample`.
* D8 The span of `InvalidCommentChar` is the one of the previous character. `C63_counterexample`.
  `ExcessiveQuotes` starts one quote early.
* D9 `string()`: an unterminated single-line string with an escape loses its last character; a lone carriage return
  is accepted behind a line-ending backslash.
* D10 `try_build`: git together with path is reported as git together with registry.
* D11 `semver` `error.rs`: the names of two fields are swapped; `toml` `error.rs`: the hint about a table that a dotted key cannot extend calls it an array; `CurlyRight` prints "`{`".
* D12 Index files: a `rust_version` of two components is refused (and with it the whole file); the URL function
  panics on an empty name and may on a non-ASCII one; no lower-casing. `C57_panics`.
* D13 `nvim`: all severities are errors. `C80_severity_counterexample`.
* D14 (quirk) `>=1` does not admit 1.2.0-alpha but admits 2.0.0-alpha; captured in `AdmitsPre`.
* D15 `mark_comments_above`: if all stored comments are contiguous above the item, none is found.
* D16 The display of the CLI panics on an unterminated string in a file with CRLF line breaks. `C66_counterexample`.
* D17 (quirk) The column in the header of a displayed diagnostic counts from 0, the line from 1.
* D18 The recovery from errors in arrays drops a comment.
* D19 A TAB between date and time is accepted.
* D20 `parse_key` on an unterminated string drops the identifiers in front of it.
* D21 `[[x.a.b]]`, `[x]`, `a.c = 1` is accepted. `C46_liberal`.
* D22 `Container::parse_with<'b>`: the lifetime is chosen by the caller, so safe code can cause a use after free. `C95_counterexample`.
* D23 `parse_dependency_features` on `[[…features]]` counts representations instead of entries.
* D25 The shown path of a key is not injective (backslashes are not escaped).
* D26 `CannotExtendTableWithDottedKey` has the hint "original array defined here"; `InvalidIntChar` says "zero in".
* D27 The place of an error in a version requirement is computed from the decoded text of the string: it is wrong behind an escape sequence, and for a multi-line string it can be behind the end of the line, where the display of the CLI panics. `C79_counterexample`.
* D28 The CLI exits with success even if there are errors; the time that it prints may panic if the clock goes back (`SystemTime::duration_since(..).unwrap()`; not modelled).
* D29 `Vec::with_capacity(capacity.max(MAX_COMPARATORS))` in `semver/src/parse.rs` was probably meant to be `min` (not observable).
* D30 The name and the features of a line of an index file are borrowed (`&str`): an escape sequence in one of them (valid JSON) makes the whole file refused. The array form of a line is accepted (quirk of `serde`). `C82_line`.

## Property by property

* **C01 Prerelease ordering is a total order consistent with equality** (proved). The comparison of tags is the loop of `Prerelease::cmp`; it is proved equal to a lexicographic comparison of parsed identifiers, whose order axioms are proved by induction. Theorems: `C01_prerelease_total_order`.
* **C02 Prerelease ordering is SemVer 2.0 precedence** (proved). `Spec/Semver.lean` defines SemVer section 11 as an inductive relation on texts; the loop is proved equivalent to it. Theorems: `C02_prerelease_precedence`.
* **C03 Build metadata ordering is a total order consistent with equality** (proved). As C01, with the extra leading-zero rule of build metadata. Theorems: `C03_build_total_order`.
* **C04 Version ordering is a lexicographic total order** (proved). Lexicographic combination of five total orders. Theorems: `C04_version_total_order`.
* **C05 Matching a parsed requirement never panics** (proved). Every output of the requirement parser satisfies a well-formedness invariant (`ReqOk`), under which the `unreachable!` of `eval.rs` is unreachable. Theorems: `C05_matching_never_panics`.
* **C06 Exact requirements** (proved). Case analysis of the decision functions against the intervals of `Spec/Matching.lean`, `omega`. Theorems: `C06_exact`.
* **C07 Caret requirements are the documented half-open intervals** (proved). As C06. Theorems: `C07_caret`.
* **C08 Tilde requirements are the documented half-open intervals** (proved). As C06. Theorems: `C08_tilde`.
* **C09 Inequality requirements** (proved). As C06. Theorems: `C09_inequalities`.
* **C10 Wildcard requirements** (proved). As C06. Theorems: `C10_wildcards`.
* **C100 Messages show what they are about** (partial). Model: Toml/ErrorText.lean, Semver/ErrorText.lean, Ide/ErrorText.lean. Specification: Spec/Wording.lean lists, per kind of diagnostic, the texts that have to stand in the message (between backticks, or as a word). Proof: by cases; the place of each text in the message is given by the literal pieces around it, which the kernel evaluates. Theorems: `C100_quotes`, `C100_found`, `C100_names`, `C100_string_kind`, `C100_hint_partial`, `C100_counterexample_hint`, `C100_hex_prefix`, `C100_codepoint`, `C100_semver_quotes`, `C100_semver_names`, `C100_error_quotes`, `C100_types`, `C100_warning_quotes`. Missing: False in the code for one hint: the hint of CannotExtendTableWithDottedKey calls the table an array (C100_counterexample_hint). The names of the two tags of a version are swapped in messages (C89_counterexample_tag), so they are not part of semverNames. The warning about a dependency without a source does not name the entry, and is not asked to. That what a diagnostic stores is true of the text is C73, C88-C91.
* **C101 What a dependency keeps can be found in the document** (proved). Model: Ide/Access.lean (the accessors), Ide/Check.lean. Specification: Spec/CheckParts.lean (what a dependency keeps, and where it has to stand). Proof: the dependencies are those of C49; the entry of each key has one representation, an assignment (C47), whose places are in order in the text (C76) and whose names and values stand in the text (C75). Theorems: `C101_strings`, `C101_booleans`, `C101_features`.
* **C102 The forms of the members of a feature** (proved). Model: Diag/Member.lean, Diag/Index.lean. Specification: Spec/Member.lean (the four documented forms and their texts). Proof: the predicates are characterised for all texts by induction, the forms follow. Theorems: `C102_asDep`, `C102_isDep`, `C102_isDepFeature`, `C102_isWeak`, `C102_forms`, `C102_unambiguous`, `C102_groups`.
* **C103 Requirements relate to each other as they read** (proved). Model: Semver/Parse.lean, Semver/Eval.lean. Specification: the words of C05-C14 (requirement texts, matching) and logical connectives. Proof: from the exact characterisation of matching (C11), by totality and asymmetry of the order of triples and of tags. Theorems: `C103_inclusions`, `C103_order`, `C103_monotone`, `C103_same_comparators`, `C103_narrowing`, `C103_narrowing_not_for_prereleases`.
* **C104 How far a defective date reaches** (proved). Model: Toml/Parse.lean (literalValue, tryCombineTimePart, combineLoop). Specification: in the statements. Proof: by running the function on an arbitrary state, and induction over the tokens that are stuck to the literal. Theorems: `C104_not_beyond`, `C104_within`, `C104_witness`.
* **C105 What the tokenizer keeps is no larger than the text** (proved). Model: Toml/Lex.lean. Specification: Spec/Lex.lean (the tokens of a text) and sums over the tokens. Proof: induction over the layout of the tokens (C32) and over the token grammar (C33). Theorems: `C105_tokens`, `C105_contents`, `C105_string`.
* **C106 Comparing versions and matching requirements agree** (proved). Model: Semver/Order.lean, Semver/Parse.lean, Semver/Eval.lean. Specification: in the statements, with the text of a version (Spec/SemverText.lean). Proof: both sides are reduced to SemVer precedence (C04 and C11). Theorems: `C106_agree`, `C106_not_comparable`.
* **C107 Compatibility of versions is a preorder** (proved). Model: Semver/Parse.lean, Semver/Eval.lean. Specification: in the statements. Proof: from C103 and C106, and arithmetic on the bounds of the caret and the tilde. Theorems: `C107_self`, `C107_transitive`, `C107_antisymmetric`, `C107_same_leading`.
* **C11 A requirement is the conjunction of its comparators plus the prerelease opt-in rule** (proved). Unfolding of `matches` to a conjunction plus the opt-in rule, stated with the SemVer order. Theorems: `C11_requirement_is_conjunction`, `C11_conjunction_of_comparators`, `C11_comparator_matches`.
* **C12 Build metadata never affects matching** (proved). No function of the evaluation reads the build tag; stated for two versions that differ there. Theorems: `C12_build_metadata_ignored`.
* **C13 A blank requirement is a caret requirement** (proved). The two operators agree on every comparator and version. Theorems: `C13_blank_is_caret`.
* **C14 Matching release versions form an interval** (proved). Each comparator admits a convex set in the version order; intersections of convex sets are convex. Theorems: `C14_interval`.
* **C15 Version display/parse round trip** (proved). Display gives a text of the grammar, and the parser refinement (C19) reads it back; induction on the decimal text. Theorems: `C15_version_display_parse`.
* **C16 Version parse/display round trip** (partial). Refinement of the cursor parser to the grammar, plus uniqueness of the text of a value. In every build: `Spec/Wrap.lean` describes the numbers that are accepted modulo 2^32, and the same refinement is proved for it. Theorems: `C16_version_parse_display_partial`, `C16_counterexample`, `C16_exact`. Missing: Full for builds with overflow checks; in release builds false on texts containing 429496729[6-9] (defect D1). C16_exact: it holds for an accepted text if and only if its numbers fit u32.
* **C17 Requirement display is lossless** (partial). Invariant of the requirement parser: the offsets that it stores describe the white space that display prints again. In every build: `Spec/Wrap.lean` describes the numbers that are accepted modulo 2^32, and the same refinement is proved for it. Theorems: `C17_requirement_display_lossless_partial`, `C17_counterexample`, `C17_exact`, `C17_display_exact`. Missing: Full for builds with overflow checks; in release builds false on texts containing 429496729[6-9] (defect D1). C17_exact: it holds for an accepted text if and only if its numbers fit u32; C17_display_exact says what is displayed otherwise.
* **C18 Alternate requirement display is the trimmed text** (partial). As C17 for the alternate form. In every build: `Spec/Wrap.lean` describes the numbers that are accepted modulo 2^32, and the same refinement is proved for it. Theorems: `C18_requirement_alternate_display_partial`, `C18_alternate_is_trim`, `C17_counterexample`. Missing: Full for builds with overflow checks; in release builds false on texts containing 429496729[6-9] (defect D1). C18_alternate_is_trim: in every build {:#} is {} without the spaces at the ends.
* **C19 parse_version accepts exactly the SemVer grammar** (partial). Refinement: the parser accepts exactly the texts derived by `Spec/SemverText.lean` and `Spec/ReqText.lean`. In every build: `Spec/Wrap.lean` describes the numbers that are accepted modulo 2^32, and the same refinement is proved for it. Theorems: `C19_version_grammar_partial`, `C19_version_grammar_debug`, `C19_requirement_grammar_partial`, `C16_counterexample`, `C19_version_exact`, `C19_requirement_exact`, `C19_checked_is_grammar`. Missing: Full for builds with overflow checks; in release builds false on texts containing 429496729[6-9] (defect D1). C19_version_exact/C19_requirement_exact: the exact accepted language and result in every build.
* **C20 Numeric fields are exact or rejected** (partial). Loop invariant of `parse_int` with machine arithmetic in both overflow modes. In every build: `Spec/Wrap.lean` describes the numbers that are accepted modulo 2^32, and the same refinement is proved for it. Theorems: `C20_numbers_exact_or_rejected_partial`, `C20_accepted_is_written_partial`, `C20_counterexample`, `C20_modulo`, `C20_fitting_accepted`, `C20_wrapped_traps`. Missing: False of the code for numbers whose decimal text starts with 429496729[6-9]: panics with overflow checks, wraps without (defect D1). C20_modulo: what is read is the written number modulo 2^32, in every build.
* **C21 At most 32 comparators** (proved). Counter invariant of the comparator loop. Theorems: `C21_comparator_count`.
* **C22 Semver error spans lie inside the input** (proved). Span invariant of each parser function: an error span is `[pre, pre+mid)` for a split of the input at characters. Theorems: `C22_version_error_spans`, `C22_requirement_error_spans`, `C22_error_spans_bounds`.
* **C23 A lone wildcard is the sole comparator** (proved). Invariant of the comparator loop. Theorems: `C23_wildcard_is_sole`.
* **C24 Semver parsers never panic** (partial). The explicit panic outcome is unreachable, by the same invariants. In every build: `Spec/Wrap.lean` describes the numbers that are accepted modulo 2^32, and the same refinement is proved for it. Theorems: `C24_no_panic_partial`, `C24_counterexample`, `C24_version_panics_iff`, `C24_requirement_panics_iff`. Missing: False of the code in builds with overflow checks on texts containing 429496729[6-9] (defect D1); proved for everything else. C24_*_panics_iff: exactly which texts panic.
* **C25 Offsets stored in comparators are faithful** (partial). As C17; shifting the start offset shifts all stored offsets. In every build: `Spec/Wrap.lean` describes the numbers that are accepted modulo 2^32, and the same refinement is proved for it. Theorems: `C25_offsets_faithful_partial`, `C25_shift_invariance`, `C25_offsets_exact`, `C17_counterexample`. Missing: Full for builds with overflow checks; in release builds false on texts containing 429496729[6-9] (defect D1). C25_offsets_exact: in every build all offsets point at what is written; only the recorded number may be the written one modulo 2^32.
* **C26 Accepted identifiers are non-empty ASCII** (proved). Invariant of the tag parser. Theorems: `C26_version_tags`, `C26_requirement_tags`, `C26_tag_characters`.
* **C27 InlineStr stores strings faithfully** (proved). Bit-level model on `BitVec 64`/byte lists; decode after encode. Theorems: `C27_faithful`, `C27_tags_are_valid`.
* **C28 InlineStr equality is string equality** (proved). By C27 and injectivity. Theorems: `C28_equality_is_text_equality`.
* **C29 InlineStr heap discipline** (proved). A state machine of all operations on a heap; ownership invariant by induction over the history. Theorems: `C29_heap_discipline`.
* **C30 The TOML lexer is total** (proved). The lexer is a structurally recursive function; the outcome is never `panic`. Theorems: `C30_total`.
* **C31 Token positions are ordered and in bounds** (proved). Induction over the tokens with a cursor invariant. Theorems: `C31_ordered`, `C31_increasing`.
* **C32 The lexer never drops text** (proved). The tokens and the skipped blanks partition the text; induction over the lexer. Theorems: `C32_lossless`, `C32_covered`.
* **C33 Exactly the TOML token grammar** (proved). Refinement to the token grammar of `Spec/Lex.lean`. Theorems: `C33_accepts`, `C33_tokens`, `C33_unique`, `literal_verbatim`, `basic_verbatim`.
* **C34 Positions count lines and bytes** (proved). Cursor invariant: position = number of line feeds and bytes behind the last one. Theorems: `C34_positions`, `C34_eof`.
* **C35 Decimal integers are exact or rejected** (proved). Digit-loop invariant with checked arithmetic against `decVal`. Theorems: `C35_decimal`, `C35_exact`, `C35_overflow_only`.
* **C36 Prefixed integers are exact or rejected** (partial). As C35 with the unchecked arithmetic that the code has. Theorems: `C36_prefixed_partial`, `C36_modulo`, `C36_counterexample`, `C36_exact`, `C36_right_iff`. Missing: False in the code for values >= 2^63: they wrap silently (0xffffffffffffffff is -1); proved: exact below 2^63, and equal modulo 2^64 always. C36_exact: every prefixed literal is accepted and read modulo 2^64; C36_right_iff: right if and only if below 2^63.
* **C37 Underscore placement** (proved). Refinement to a grammar of digit groups. Theorems: `C37_underscores`.
* **C38 Float grammar** (proved). Refinement of the cleaned text to the TOML float grammar. Theorems: `C38_float`.
* **C39 Date-time fields are always valid** (proved). Case analysis of the field parsers. Theorems: `C39_valid`, `C39_valid_date`.
* **C40 Date-time round trip** (proved). Print-then-parse by induction on the fields. Theorems: `C40_accepts`, `C40_round_trip`.
* **C41 No trailing junk after a date-time** (partial). Grammar of the accepted texts. Theorems: `C41_no_junk_partial`, `C41_date`, `C41_counterexample`, `C41_exact`. Missing: False in the code behind an offset (1979-05-27T07:32:00Zjunk is accepted); proved everywhere else. C41_exact: which literals without underscores are read as which date-time.
* **C42 No underscores in date-times** (partial). As C41. Theorems: `C42_no_underscore_partial`, `C42_counterexample`, `C42_exact`. Missing: False in the code for the year and the hour of a local time (1_:30:00); proved everywhere else. C42_exact: exactly which literals are read as which date-time, in every build.
* **C43 Only lower-case inf/nan** (partial). Finite case analysis lifted to all texts. Theorems: `C43_special_partial`, `C43_accepts`, `C43_counterexample`, `C43_exact`. Missing: False in the code for +Inf, -Inf, +Nan, -Nan; proved that these are the only exceptions. C43_exact: exactly which literals are read as infinity or NaN.
* **C44 Literal parsers never panic** (proved). Panic outcome unreachable for each literal parser. Theorems: `C44_no_panic`.
* **C45 Inserting never loses keys** (proved). Refinement of map construction to `docDefs`/`Says` of `Spec/Map.lean`, by induction over the document. Theorems: `C45_map`, `C45_value`, `C45_text`.
* **C46 Duplicates are reported and first wins** (proved). Same induction; the error count is positive exactly if two definitions are incompatible. Theorems: `C46_reported`, `C46_text`, `C46_first_wins`, `C46_first_wins_section`, `C46_first_wins_inline`, `C46_assignment`, `C46_assignment_section`, `C46_assignment_inline`, `C46_header`, `C46_array_header`, `C46_liberal`.
* **C47 Representation paths are valid** (proved). Invariant of the map under every insertion (`Spec/MapRepr.lean`), also for documents with mistakes. Theorems: `C47_map`, `C47_tree`, `C47_lookup`.
* **C48 Array-of-tables order** (proved). Corollary of the refinement for a list of headers. Theorems: `C48_length`, `C48_order`, `C48_last`, `C45_map`.
* **C49 Dependency source decision table** (proved). `CheckM` is a writer/panic monad; its runs are proved equal to `Spec/Check.lean` up to the order of the table entries. Theorems: `C49_check`, `C49_source`, `C49_version`, `C49_other`, `C49_contradictions`, `C49_reported`, `C49_package`.
* **C50 check is independent of map iteration order** (proved). The specification reads tables by key only, so two orders have permutation-equal results. The entries whose versions are read are the same too. Theorems: `C50_order`, `C50_order_release`, `C50_messages`, `C50_panics`.
* **C51 Unknown keys are reported** (proved). Case analysis over the key sets of the check. Theorems: `C51_unknown`, `C51_reported`.
* **C52 Diagnostics mark/reset** (proved). List length lemmas over all nestings. Theorems: `C52_reset`, `C52_nested`, `C52_collect`.
* **C53 Diagnostics sort is a stable permutation** (proved). `sort_by` as a stable merge; the result of a stable sort is unique. Theorems: `C53_sort`, `C53_ordered`, `C53_unique`.
* **C54 Line splitting** (proved). Induction over the text against `LinesOf`. Theorems: `C54_lines`, `C54_count`.
* **C55 Feature order is total** (proved). Order axioms from rank and text order. Theorems: `C55_total`, `C55_order`.
* **C56 Index files** (proved). Refinement over the lines; JSON decoding is a parameter. Theorems: `C56_parse`, `C56_sorted`.
* **C57 Sparse index URL** (proved). Case analysis on the length of the name. Theorems: `C57_url`, `C57_panics`, `C57_index_url`.
* **C58 TOML parser terminates** (proved). Fuel-indexed model; a progress measure proves a sufficient fuel for every text. Theorems: `C58_terminates`, `C58_consumes`.
* **C59 Nesting is bounded** (proved). Depth counter invariant. Theorems: `C59_nesting`, `C59_reported`, `C59_grammar`, `C58_terminates`.
* **C60 TOML parser never panics** (partial). Panic outcome unreachable under the stated condition; a witness where it is reachable. Theorems: `C60_no_panic_partial`, `C60_no_multiline_partial`, `C60_valid_partial`, `C60_counterexample`, `C60_checked_counterexample`. Missing: False in the code; proved for all texts that follow the grammar, and for all texts without a pair of brackets split over lines, e.g. all texts without multi-line strings.
* **C61 Literal diagnostics point into the literal** (proved). Offset invariant of each literal parser. Theorems: `C61_spans`.
* **C62 Booleans** (proved). Case analysis lifted to all texts. Theorems: `C62_bool`.
* **C63 Lexical diagnostics point at characters** (partial). Each lexical error is attached to a split of the text. Theorems: `C63_places_partial`, `C63_ascii`, `C63_counterexample`, `C63_exact`. Missing: False in the code for control characters in comments; proved that this is the only exception. C63_exact: which diagnostics are at character boundaries, for all texts.
* **C64 The place of the contents of a string** (partial). Span arithmetic of `apply_to` over the text of a string token. Theorems: `C64_text_span_partial`, `C68_tree_in_text`, `C64_counterexample`, `C64_exact`. Missing: Strings: false in the code for a line break behind the opening delimiter (and for multi-line strings with 256 or more closing quotes); proved otherwise (C64_text_span_partial). Keys: the place of the text of every identifier of the tree is exactly the place of what is between its quotes, for every text (`IdentAt` in C68_tree_in_text). C64_exact: the computed place for every string, and exactly when it is right.
* **C65 Rendering a diagnostic never panics** (proved). Model of the CLI display with slices as panics; bounds of each slice. Exactly: the slices succeed only at boundaries (Diag/Exact.lean), and a boundary of a line is a place of the text. Theorems: `C65_no_panic`, `C65_body`, `C65_header`, `C65_body_lines`, `C65_plain`, `C65_hint`, `C65_width`, `C65_aligned`, `C65_panics_iff`, `C65_piece`.
* **C66 Every lexical diagnostic can be rendered** (partial). Combination of C54, C63 and C65. Theorems: `C66_lexer_partial`, `C66_shown_iff`, `C66_counterexample`. Missing: False in the code for texts with carriage returns; proved for texts without them, apart from control characters in non-ASCII comments (C63). C66_shown_iff holds for all texts: a diagnostic can be shown exactly if its span is a piece of the text that neither starts nor ends inside of a line break.
* **C67 Names in messages are safe to print** (proved). Induction over the text. Theorems: `C67_fmtStr`.
* **C68 The tree stands in the text** (proved). Post-conditions of each parser function (Hoare style, `Post`), induction on fuel. Theorems: `C68_tree_in_text`.
* **C69 Parser diagnostics point into the text** (proved). As C68 for the diagnostics; errors in literals by a logic on cursors (`LitBound.lean`). Theorems: `C69_diagnostics`, `C69_open_bracket`.
* **C70 Comments are kept** (proved). As C68; each comment token is kept exactly once unless the parser recovers from an error. Theorems: `C70_comments_in_text`, `C70_comments_kept`, `C68_tree_in_text`.
* **C71 Exactly the TOML grammar** (proved). Soundness and completeness of the parser against `Spec/Grammar.lean`. Theorems: `C71_grammar`.
* **C72 The tree says what the text says** (proved). The items of the tree equal the items of the derivation, and derivations are unique. Theorems: `C72_items`, `C72_unambiguous`.
* **C73 Diagnostics of the map say where the keys collide** (proved). Invariant over map construction: each diagnostic relates a key of the document and an entry of the final map. Theorems: `C73_errors`, `C73_tree`.
* **C74 The check of a manifest never panics** (partial). Panic outcome of `CheckM` unreachable on the map of any text unless a version requirement that is read panics (`check_spec`); conversely a panicking step makes the loops around it panic (`check_fails`); which requirements panic is C24. Theorems: `C74_no_panic_partial`, `C74_no_panic_release`, `C74_counterexample`, `C74_panics_iff`, `C74_no_panic_reads`. Missing: C74_panics_iff: exactly when the check panics, for every text, build and order of the tables: in builds with overflow checks, if a version requirement that is read has a number that overflows in the version parser (defect D1). Hence no panic without overflow checks. The full statement is false: C74_counterexample.
* **C75 The map of a document stands in its text** (proved). Invariant over map construction carried over from C68. Theorems: `C75_map_in_text`.
* **C76 The parts of the tree are in the order of the text** (proved). The invariant of C68 extended: the places of everything collected so far are an ordered list of pieces of the consumed text. Theorems: `C76_order`, `C76_assignment_spans`, `C76_spans`, `C76_counterexample`.
* **C77 The plain values of a document** (proved). Induction over locations; the entries of a table of the map have distinct keys (C47). Theorems: `C77_text`, `C77_any`, `C77_datatype`.
* **C78 validate prints each diagnostic once** (partial). All spans and context lines of all diagnostics are in the text (C69, C73, C76), so the display cannot panic (C65); the order by C53. The exact conditions by C65_panics_iff. Theorems: `C78_validate_partial`, `C78_text_partial`, `C78_clean`, `C78_values`, `C78_counterexample`, `C78_arguments`, `C78_prints`, `C78_panics_iff`. Missing: That nothing is printed exactly for valid documents, and the printed values, hold for all texts (C78_clean, C78_values). That the program does not panic and prints everything holds for texts without carriage returns, without multi-line strings between brackets, and without control characters in comments behind non-ASCII characters; it is false in general: C78_counterexample. For every text: what is printed if the program does not panic (C78_prints), and exactly when it panics (C78_panics_iff).
* **C79 check prints each diagnostic once** (partial). As C78 for each constructor of the specification of the messages (`Message`, C49); spans of version errors by C22 and the place of the string. Theorems: `C79_check_partial`, `C79_text_partial`, `C79_clean`, `C79_counterexample`, `C78_arguments`, `C79_severity`, `C79_prints`, `C79_panics_iff`. Missing: As C78; the version requirements have to be written on one line and without backslashes, and with overflow checks none that is read may have a number of C20. False in general: C79_counterexample. C79_clean holds for every text and build. For every text, build and order: what is printed if the program does not panic (C79_prints), and exactly when it panics (C79_panics_iff).
* **C80 The Neovim plugin shows each diagnostic in the buffer** (partial). The phases are those of C79; a place of the text of a buffer is a place in one of its lines, by induction over the lines. Theorems: `C80_diagnostics`, `C80_shown_partial`, `C80_text_partial`, `C80_clean`, `C80_published`, `C80_counterexample`, `C80_severity_counterexample`, `C80_panics_iff`, `C80_shown_iff`. Missing: Whenever the plugin returns, it returns exactly the diagnostics (C80_diagnostics, C80_clean, all buffers). C80_panics_iff: when it panics. Valid ranges need the premises of C79 except the one about carriage returns; false in general: C80_counterexample. The Lua part gives warnings the severity of errors: C80_severity_counterexample. C80_shown_iff: exactly which diagnostics have a valid range, for all buffers.
* **C81 Nothing from the file reaches the terminal unescaped** (proved). All texts of all diagnostics are put together from constants, escaped names and digits; the expected words named in errors are keywords (C69), the keys named by the check are constants (C49); then induction over the lines that are displayed. Theorems: `C81_texts`, `C81_messages`.
* **C82 Lines of an index file** (proved). The derived `Deserialize` code is a function on JSON trees; the specification says by field name (or by place, for the array form) what a tree says; an iff by cases on the loop over the entries of an object. Theorems: `C82_line`, `C82_every_build`, `C82_unique`, `C82_no_panic`, `C82_unknown`, `C82_file`.
* **C83 Fetching a crate** (proved). Case analysis over the responses; the outcome is specified by a relation between responses and results; UTF-8 decoding by the lemmas of Lean's core library. Theorems: `C83_fetch`, `C83_ok`, `C83_no_panic`.
* **C84 Serialized versions and requirements are read back** (proved). From the lossless display (C15, C17) and the soundness and completeness of the parser of requirements. Theorems: `C84_version`, `C84_requirement`, `C84_requirement_every_build`.
* **C85 Vectors with at least one element** (proved). Induction over the history of calls, with a specification of the value last written to each place. Theorems: `C85_history`, `C85_ends`, `C85_unchecked`.
* **C86 An error in one line does not affect the others** (proved). Induction over the parts of the text: the tokenizer is back at the start of a line with nothing pending behind each part, and the parser loop is at the same token; for a damaged line, every token and every diagnostic stays on that line. Theorems: `C86_damaged`, `C86_no_panic`.
* **C87 A displayed requirement is read back** (proved). The requirement that is read from a text with wrapped numbers is the one of the text with the numbers modulo 2^32 and spaces in the place of the lost digits; display prints that text and it is in the grammar. Theorems: `C17_display_parse`, `C17_display_exact`, `C18_alternate_is_trim`.
* **C88 What a diagnostic about a literal says is true** (partial). `Right` in Spec/LitTruth.lean states per kind what the message claims of the text and the place. Every loop of the literal parser carries the shape of the prefix already read as an invariant (Toml/LitTruth*.lean). Theorems: `C88_right_partial`, `C88_no_panic`, `C88_counterexample_exponent`, `C88_counterexample_hour`, `C88_counterexample_fraction`. Missing: False as stated for three kinds, whose meaning is weakened in Spec/LitTruth.lean: `1e` is said to overflow though only the digits of the exponent are missing, `123:00` is said to lack digits of the hour though it has three, and a missing fraction of a second is reported at the end of the literal.
* **C89 What an error about a version says is true** (partial). Spec/SemverTruth.lean says, for each kind of error, of which texts (in front of, under and behind the span) it is true. The soundness lemmas for what was read (C19) give the text in front; each parser step that fails is inspected (Semver/Truth.lean). Theorems: `C89_version_partial`, `C89_requirement_partial`, `C89_number_names`, `C89_counterexample_tag`, `C89_counterexample_trailing`. Missing: Proved for every text and build: the error is about a fault that the text has at the covered place, with the complete shape of the text in front of it, and stores the part of the version that is there. False in the code: the names of the two tags are swapped in the message texts, and the message about trailing characters always names a wrong part (counterexamples).
* **C90 What a diagnostic of the tokenizer says is true** (partial). Spec/LexTruth.lean says, for each kind of diagnostic, of which texts (in front of, under and behind the mark) it is true. The invariant of the string loop carries the opening delimiter, the body read so far and that it is not closed (`Open`); every place that reports shows the truth of its report (LexQuote, LexEsc, LexEsc2, LexIter, LexLoop, LexMain). Theorems: `C90_truth_partial`, `C90_missing_quote`, `C90_escape`, `C90_codepoint`, `C90_counterexample_comment`, `C90_counterexample_quotes`. Missing: Proved for every document and every kind of diagnostic: the diagnostic is a true statement about the marked text and what is in front of and behind it, including that the place is inside of an unclosed string. False in the code: the diagnostic about a control character in a comment marks the character in front of it, and the one about excess quotes marks one quote that is allowed (counterexamples).
* **C91 What a diagnostic of the parser says is true** (partial). Spec/ParseTruth.lean says for each kind of diagnostic what it claims about the tokens and their places (`Claims`). The invariant `Good` of the parser relates the state to the tokens in front and behind; every place that reports shows its claim, and the postconditions of the nested parsers carry what their callers report about (the last token, the opened brackets, the depth): ParseTold, ParseLogic, ParseKey, ParseVal, ParseArr, ParseHead, ParseRoot, ParseTop. Theorems: `C91_truth_partial`, `C91_unclosed_curly`, `C91_nesting`, `C91_counterexample_curly`, `C91_counterexample_comma`. Missing: Proved for every document and every kind of diagnostic the parser gives, against a separate specification of what each message claims about the tokens of the text. False in the code: a closing curly bracket is called `{`, and the comma marked as trailing in an inline table can be one in front of the last (counterexamples).
* **C92 A damaged entry does not affect the others** (proved). Values with faults are an inductive definition next to the grammar (Spec/Soft.lean), with a pattern of what must be in the tree and the extents of the faults. Induction over the depth and, in arrays and tables, over the number of tokens; for the tokens of a damaged entry an invariant of the loop says that the parser cannot pass the comma or bracket that ends it, and that diagnostics begin inside. Theorems: `C92_entries`, `C92_no_panic`, `C92_lines`, `soft_of_val`.
* **C93 What the comments of a document belong to** (partial). A document is a list of lines (Spec/Assoc.lean), and a function of the lines says what a comment belongs to, independently of the parser. An inductive relation (Reach) describes what the loop gathers line by line; the parser refines it (AssocRoot, by induction on the lines, using the completeness proof of the grammar), and an invariant of the relation (AssocInv) gives the claims. A separate frame argument (AssocVal) shows that reading a value leaves the comments in front of it alone. Theorems: `C93_lines`, `C93_items`, `C93_assignment_partial`, `C93_header`, `C93_own_line`, `C93_free`, `C93_counterexample_level`, `C93_counterexample_entry`. Missing: Proved for all texts without diagnostics: which comments each header and assignment has, in which order, and what becomes of every comment on its own line. False in the code (counterexamples proved): the comment behind an assignment in a table has level 0; a comment above an entry of an array is marked as above it but is not among its comments. How the comments inside of a value are marked is not claimed.
* **C94 The comments of an array** (proved). Every function of the parser moves tokens from the rest to the storage of comments or drops them, and keeps both together sorted by their places (AssocArr: Adv, Srt). For each value read, every closed array in it has the range of the stored comments between its brackets, and everything that is still to be read is behind its closing bracket (ArrGood, by induction on the depth and on the loops). AssocArrRoot carries this through the loop over the items, with the comments that are still pending and those that are items of their own. C94_text adds that no comment is lost (C70) and that sorted permutations are equal. Theorems: `C94_array`, `C94_order`, `C94_free`, `C94_text`.
* **C95 Containers are memory safe** (partial). Memory is a list of regions that are live or freed; every access checks that, and a failed check is a fault. The specification (Spec/Container.lean) has no memory: a container is a text. Refinement by induction on the history, with the invariant that each container refers only to its own live arena, that no two containers share one, and that the live arenas are counted by the containers and the panics. Theorems: `C95_safe_partial`, `C95_freed`, `C95_counterexample`, `C95_fault`. Missing: Proved for all histories in which the function given to parse_with returns a text of the arena it was given (or panics); an arena whose parsing panics is never freed (its number is part of the theorem). False in the code otherwise (counterexample proved): safe code can return a text of its own, free it and read it through the container. References that the function stores elsewhere are not modelled.
* **C96 Comments are classified by where they stand** (partial). Invariants of the run of the parser over the tokens: `KR` (Toml/AssocKind*.lean) says that the stored comments at the end of a line are exactly those with a token that is no line break directly in front; Toml/AssocKindText.lean shows that this is the same as `FirstOnLine` in the text; `AboveOk` (Toml/AssocAbove*.lean) says that the comments that are marked as above are above a line of the tree so far. `EntOk` (Toml/AssocEnt*.lean) says that the last comment in front of the end of an entry is marked if it is on the line above it. Only for runs without diagnostics. Theorems: `C96_place`, `C96_line_end`, `C96_free`, `C96_above_partial`, `C96_entry`, `C96_counterexample_inner`, `C96_counterexample_entry`. Missing: Proved for all texts without diagnostics: which comments are marked as line-end comments, that free comments stand alone on their line, and that every comment marked as above something is above a header, an assignment or an entry with only comments in between; and that a comment alone on the line above an entry is marked if no further comment follows up to the end of the entry. False in the code (counterexamples proved): a comment inside of the brackets of an entry is marked as above the next entry on the line of the closing bracket; a comment directly above an entry with a comment in it is not marked.
* **C97 Levels of comments** (proved). `AstLv` (Toml/AssocLevel*.lean) says for a value that its arrays have the level of the nesting, that every stored comment since the start of the value is in one of its arrays, and that those directly in an array have the level of the array or of its entries; it is an invariant of each loop of the parser, in all runs. Theorems: `C97_assignment`, `C97_header`, `C97_array`, `C97_entry`, `C97_level`.
* **C98 The comments of an entry of an array** (proved). `Owned` (Toml/AssocOwn*.lean) says of a finished array that the comments of its entries lie behind their starts, that everything between the start and the comma of an entry and every comment at the end of a line behind an entry is in a range, and that the entries are ordered; it is kept by consuming tokens and storing further comments (`Adv`, `Stay`). Only for runs without diagnostics. Theorems: `C98_entry`, `C98_unique`, `C98_order`.
* **C99 Every part of a document is in the map or is reported** (proved). Model: the whole of Toml/Map.lean. Specification: Spec/MapAll.lean lists the parts of a tree by recursion over the tree alone, says when a part is in a map, and pairs the diagnostics with the rejected parts. Proof (Toml/MapAll.lean): an accounting predicate is carried through each function of the map (walk, insert, values, arrays, documents); what was stored earlier stays stored by the growth lemmas of C46. Theorems: `C99_parts`, `C99_tree`, `C99_all`, `C99_count`.
