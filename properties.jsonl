{"id": "C01", "title": "Prerelease ordering is a total order consistent with equality", "statement": "Comparing two prerelease tags (`Ord::cmp` on Prerelease) is antisymmetric, transitive and total, and returns Equal exactly when the two tags are the same string, so sorting versions is well defined.", "quantifier": "all pairs/triples of prerelease strings", "why_tests_cant": "sorting correctness needs the order axioms for every triple of strings; tests sample a few", "anchors": ["crates/semver/src/lib.rs: impl Ord for Prerelease"]}
{"id": "C02", "title": "Prerelease ordering is SemVer 2.0 precedence", "statement": "For any two syntactically valid prerelease tags, the comparison agrees with SemVer 2.0 section 11: a release is greater than any prerelease; identifiers are compared left to right, numeric ones by numeric value, alphanumeric ones in ASCII order, numeric below alphanumeric, and a longer list of identifiers wins when all earlier ones are equal.", "quantifier": "all valid prerelease tags, of any length and number of identifiers", "why_tests_cant": "unbounded digit strings and identifier lists", "anchors": ["crates/semver/src/lib.rs: impl Ord for Prerelease"]}
{"id": "C03", "title": "Build metadata ordering is a total order consistent with equality", "statement": "Comparing two build-metadata tags is antisymmetric, transitive, total, and Equal exactly on identical strings; all-digit identifiers are ordered by numeric value first and then by their number of leading zeros.", "quantifier": "all pairs/triples of build metadata strings", "why_tests_cant": "order axioms range over every triple of strings", "anchors": ["crates/semver/src/lib.rs: impl Ord for BuildMetadata"]}
{"id": "C04", "title": "Version ordering is a lexicographic total order", "statement": "Versions are ordered by major, then minor, then patch, then prerelease, then build metadata; that order is total, transitive, and Equal exactly on equal versions.", "quantifier": "all versions", "why_tests_cant": "order axioms range over every triple of versions", "anchors": ["crates/semver/src/lib.rs: struct Version derive(PartialOrd, Ord)"]}
{"id": "C05", "title": "Matching a parsed requirement never panics", "statement": "If parse_requirement accepted a string, then evaluating the requirement against any version never reaches the `unreachable!` branches for `>*`, `<*` or `^*`.", "quantifier": "every input string accepted by parse_requirement and every version", "why_tests_cant": "the panic arms depend on the set of all parser outputs", "anchors": ["crates/semver/src/eval.rs: matches_requirement, matches_greater, matches_less, matches_caret", "crates/semver/src/parse.rs: parse_requirement"]}
{"id": "C06", "title": "Exact requirements", "statement": "`=A.B.C-pre` matches exactly the version with those fields (any build metadata); with omitted minor/patch fields it matches every release version that agrees on the given fields.", "quantifier": "all comparators and versions", "why_tests_cant": "all u32 triples and tags", "anchors": ["crates/semver/src/eval.rs: matches_exact"]}
{"id": "C07", "title": "Caret requirements are the documented half-open intervals", "statement": "A release version matches `^A.B.C` iff it is >= A.B.C and < the next version that changes the left-most non-zero component (A+1.0.0, 0.B+1.0, 0.0.C+1), with the Cargo rules for `^A.B`, `^A`, `^0.0` and `^0`.", "quantifier": "all comparators and versions", "why_tests_cant": "all u32 triples", "anchors": ["crates/semver/src/eval.rs: matches_caret"]}
{"id": "C08", "title": "Tilde requirements are the documented half-open intervals", "statement": "A release version matches `~A.B.C` iff A.B.C <= v < A.(B+1).0, `~A.B` iff A.B.0 <= v < A.(B+1).0, `~A` iff A.0.0 <= v < (A+1).0.0.", "quantifier": "all comparators and versions", "why_tests_cant": "all u32 triples", "anchors": ["crates/semver/src/eval.rs: matches_tilde"]}
{"id": "C09", "title": "Inequality requirements", "statement": "For release versions, `>`/`>=`/`<`/`<=` with a full version are the order relations on versions ignoring build metadata; with a partial version `>A.B` means >= A.(B+1).0, `<=A.B` means < A.(B+1).0, `>=A.B` means >= A.B.0 and `<A.B` means < A.B.0 (same with only A).", "quantifier": "all comparators and versions", "why_tests_cant": "all u32 triples and tags", "anchors": ["crates/semver/src/eval.rs: matches_greater, matches_less, matches_impl"]}
{"id": "C10", "title": "Wildcard requirements", "statement": "`*` matches every release version and no prerelease; `A.*` (also `A.*.*`) matches exactly the release versions with major A; `A.B.*` exactly those with major A and minor B; the wildcard character used (`*`, `x`, `X`) does not matter.", "quantifier": "all wildcard comparators and versions", "why_tests_cant": "all u32 values", "anchors": ["crates/semver/src/eval.rs: matches_impl, matches_exact", "crates/semver/src/parse.rs: comp_version"]}
{"id": "C11", "title": "A requirement is the conjunction of its comparators plus the prerelease opt-in rule", "statement": "A requirement matches a version iff every comparator matches it and, when the version has a prerelease tag, at least one comparator has a prerelease tag on the same major.minor.patch.", "quantifier": "all requirements and versions", "why_tests_cant": "any number of comparators", "anchors": ["crates/semver/src/eval.rs: matches_requirement, pre_is_compatible"]}
{"id": "C12", "title": "Build metadata never affects matching", "statement": "Changing the build metadata of the version or of any comparator never changes whether a requirement matches.", "quantifier": "all requirements, versions, metadata", "why_tests_cant": "universally quantified over tags", "anchors": ["crates/semver/src/eval.rs"]}
{"id": "C13", "title": "A blank requirement is a caret requirement", "statement": "`1.2.3` and `^1.2.3` match exactly the same versions, for every version text.", "quantifier": "all comparator versions and versions", "why_tests_cant": "universal", "anchors": ["crates/semver/src/eval.rs: matches_impl", "crates/semver/src/lib.rs: Op::Bl"]}
{"id": "C14", "title": "Matching release versions form an interval", "statement": "If two release versions match a requirement then every release version between them matches too.", "quantifier": "all parsed requirements, all triples of release versions", "why_tests_cant": "universal over requirements with up to 32 comparators", "anchors": ["crates/semver/src/eval.rs: matches_requirement"]}
{"id": "C15", "title": "Version display/parse round trip", "statement": "Displaying any version obtained from the parser and parsing the text again gives an equal version.", "quantifier": "all parsed versions", "why_tests_cant": "unbounded tags, all u32", "anchors": ["crates/semver/src/display.rs: Display for Version", "crates/semver/src/parse.rs: parse_version"]}
{"id": "C16", "title": "Version parse/display round trip", "statement": "If parse_version accepts a text, displaying the result gives the text back with leading and trailing spaces removed (no field is lost, no digit is changed).", "quantifier": "all input texts", "why_tests_cant": "unbounded inputs; fails today for fields in 2^32..2^32+3 in release builds", "anchors": ["crates/semver/src/parse.rs: parse_version, parse_int", "crates/semver/src/display.rs"]}
{"id": "C17", "title": "Requirement display is lossless", "statement": "If parse_requirement accepts a text, formatting the result with `{}` reproduces the text exactly, including all spacing and the wildcard characters used.", "quantifier": "all input texts", "why_tests_cant": "unbounded inputs", "anchors": ["crates/semver/src/display.rs: Display for VersionReq", "crates/semver/src/parse.rs: parse_requirement"]}
{"id": "C18", "title": "Alternate requirement display is the trimmed text", "statement": "Formatting an accepted requirement with `{:#}` gives the input text with leading and trailing spaces removed and nothing else changed.", "quantifier": "all input texts", "why_tests_cant": "unbounded inputs", "anchors": ["crates/semver/src/display.rs"]}
{"id": "C19", "title": "parse_version accepts exactly the SemVer grammar", "statement": "parse_version succeeds exactly on texts of the form: spaces, MAJOR.MINOR.PATCH without leading zeros and fitting u32, optional -prerelease, optional +build, spaces; with identifiers as in SemVer 2.0.", "quantifier": "all input texts", "why_tests_cant": "unbounded inputs; soundness and completeness against a grammar", "anchors": ["crates/semver/src/parse.rs: parse_version, parse_int, parse_ident"]}
{"id": "C20", "title": "Numeric fields are exact or rejected", "statement": "A numeric version field is parsed to exactly the number written, or rejected with an overflow error when it does not fit 32 bits.", "quantifier": "all digit strings", "why_tests_cant": "needs all digit strings; false today at 4294967296..4294967299 (and prefixes)", "anchors": ["crates/semver/src/parse.rs: parse_int"]}
{"id": "C21", "title": "At most 32 comparators", "statement": "An accepted requirement has between 1 and 32 comparators.", "quantifier": "all input texts", "why_tests_cant": "unbounded inputs", "anchors": ["crates/semver/src/parse.rs: parse_requirement, MAX_COMPARATORS"]}
{"id": "C22", "title": "Semver error spans lie inside the input", "statement": "Every error returned by parse_version / parse_requirement points to a position between the given start position and the end of the text (a start offset and length inside the text, on character boundaries).", "quantifier": "all input texts and start positions", "why_tests_cant": "unbounded inputs", "anchors": ["crates/semver/src/parse.rs", "crates/semver/src/error.rs"]}
{"id": "C23", "title": "A lone wildcard is the sole comparator", "statement": "In an accepted requirement, a comparator that is a bare `*`/`x`/`X` is the only comparator.", "quantifier": "all input texts", "why_tests_cant": "unbounded inputs", "anchors": ["crates/semver/src/parse.rs: parse_requirement"]}
{"id": "C24", "title": "Semver parsers never panic", "statement": "parse_version and parse_requirement return a result for every text, in builds with and without overflow checks.", "quantifier": "all input texts", "why_tests_cant": "unbounded inputs; false today in builds with overflow checks", "anchors": ["crates/semver/src/parse.rs: parse_int"]}
{"id": "C25", "title": "Offsets stored in comparators are faithful", "statement": "In an accepted requirement the stored offsets are ordered (op <= version < comma < next op), inside the text, and the text at each offset is the operator, version or comma recorded; shifting the start position changes nothing but positions.", "quantifier": "all input texts", "why_tests_cant": "unbounded inputs", "anchors": ["crates/semver/src/lib.rs: Comparator", "crates/semver/src/parse.rs: parse_requirement"]}
{"id": "C26", "title": "Accepted identifiers are non-empty ASCII", "statement": "Any prerelease or build tag handed to the unsafe InlineStr constructor consists only of ASCII letters, digits, hyphens and dots, contains no NUL byte, and has no empty segment.", "quantifier": "all input texts", "why_tests_cant": "unsafe precondition must hold for every input", "anchors": ["crates/semver/src/parse.rs: parse_ident, new_unchecked call sites", "crates/semver/src/inlinestr.rs: new_unchecked"]}
{"id": "C27", "title": "InlineStr stores strings faithfully", "statement": "Building an inline string from a text that satisfies the documented precondition and reading it back gives the same text, whether it is empty, inlined in 8 bytes or on the heap.", "quantifier": "all admissible strings", "why_tests_cant": "all byte contents and lengths", "anchors": ["crates/semver/src/inlinestr.rs: new_unchecked, as_str, len"]}
{"id": "C28", "title": "InlineStr equality is string equality", "statement": "Two inline strings compare equal iff they hold the same text, regardless of representation.", "quantifier": "all pairs of admissible strings", "why_tests_cant": "all byte contents and lengths", "anchors": ["crates/semver/src/inlinestr.rs: PartialEq"]}
{"id": "C29", "title": "InlineStr heap discipline", "statement": "Over any history of construction, cloning and dropping, every heap buffer is freed exactly once, reads only touch live buffers, and dropping everything leaves no allocation.", "quantifier": "all operation histories", "why_tests_cant": "any interleaving of operations of any length", "anchors": ["crates/semver/src/inlinestr.rs: Drop, Clone, new_unchecked"]}
{"id": "C30", "title": "The TOML lexer is total", "statement": "Lexing returns a token list ending in exactly one EOF token for every text.", "quantifier": "all input texts", "why_tests_cant": "unbounded inputs", "anchors": ["crates/toml/src/lex.rs: lex, Lexer"]}
{"id": "C31", "title": "Token positions are ordered and in bounds", "statement": "Token positions strictly increase through the token list and lie inside the text, and a word token's text is the slice of the input at its position.", "quantifier": "all input texts", "why_tests_cant": "unbounded inputs", "anchors": ["crates/toml/src/lex.rs"]}
{"id": "C32", "title": "The lexer never drops text", "statement": "Every character of the input outside of spaces, tabs and line breaks is covered by exactly one token or reported in a diagnostic.", "quantifier": "all input texts", "why_tests_cant": "unbounded inputs", "anchors": ["crates/toml/src/lex.rs"]}
{"id": "C33", "title": "Exactly the TOML token grammar", "statement": "A text gives no lexical diagnostic exactly when it follows the token grammar of TOML (strings, escapes, comments, bare words, punctuation, line breaks), and then the tokens, including the decoded contents of the strings, are the ones the grammar assigns; in particular escapes become the code points TOML assigns and literal strings are verbatim.", "quantifier": "all input texts", "why_tests_cant": "unbounded inputs, all code points", "anchors": ["crates/toml/src/lex.rs: lex, string, string_escape"]}
{"id": "C34", "title": "Positions count lines and bytes", "statement": "A token's line is the number of line feeds before it and its column the number of bytes since the last one.", "quantifier": "all input texts", "why_tests_cant": "unbounded inputs", "anchors": ["crates/toml/src/lex.rs"]}
{"id": "C35", "title": "Decimal integers are exact or rejected", "statement": "An accepted decimal integer literal has exactly the value written and fits i64; any literal out of range is reported as overflow.", "quantifier": "all digit strings with underscores and signs", "why_tests_cant": "all digit strings", "anchors": ["crates/toml/src/parse/num.rs: parse_num_or_date, parse_int_or_float_or_date"]}
{"id": "C36", "title": "Prefixed integers are exact or rejected", "statement": "An accepted 0x/0o/0b literal has exactly the value written and fits in i64; too large literals are reported as overflow.", "quantifier": "all prefixed literals", "why_tests_cant": "all digit strings; false today (silent wrap-around)", "anchors": ["crates/toml/src/parse/num.rs: parse_prefixed_int"]}
{"id": "C37", "title": "Underscore placement", "statement": "An accepted integer literal has no leading, trailing or doubled underscore.", "quantifier": "all literals", "why_tests_cant": "unbounded inputs", "anchors": ["crates/toml/src/parse/num.rs"]}
{"id": "C38", "title": "Float grammar", "statement": "A literal is accepted as a float only if, after removing underscores placed between digits, it has the TOML float form.", "quantifier": "all literals", "why_tests_cant": "unbounded inputs", "anchors": ["crates/toml/src/parse/num.rs: parse_float"]}
{"id": "C39", "title": "Date-time fields are always valid", "statement": "Any accepted date or time literal has a real calendar date (month 1-12, day valid for the month and year), hour <= 23, minute <= 59, second <= 60 rules as documented, nanoseconds < 10^9 and an offset in range.", "quantifier": "all literals", "why_tests_cant": "all digit combinations", "anchors": ["crates/toml/src/parse/datetime.rs", "crates/toml/src/datetime.rs"]}
{"id": "C40", "title": "Date-time round trip", "statement": "Formatting any valid date, time or offset date-time in RFC 3339 form and parsing it gives the same value.", "quantifier": "all valid date-times", "why_tests_cant": "all field combinations", "anchors": ["crates/toml/src/parse/datetime.rs", "crates/toml/src/datetime.rs"]}
{"id": "C41", "title": "No trailing junk after a date-time", "statement": "A literal is accepted as a date-time only if nothing follows the date-time.", "quantifier": "all literals", "why_tests_cant": "unbounded inputs; false today after an offset", "anchors": ["crates/toml/src/parse/datetime.rs"]}
{"id": "C42", "title": "No underscores in date-times", "statement": "A literal containing an underscore is never accepted as a date or time.", "quantifier": "all literals", "why_tests_cant": "unbounded inputs; false today", "anchors": ["crates/toml/src/parse/num.rs", "crates/toml/src/parse/datetime.rs", "crates/toml/src/parse/lit.rs"]}
{"id": "C43", "title": "Only lower-case inf/nan", "statement": "A literal is accepted as infinity or NaN only if it is spelled inf/nan with optional sign.", "quantifier": "all literals", "why_tests_cant": "unbounded inputs; false today with a sign", "anchors": ["crates/toml/src/parse/lit.rs: parse_bare_literal", "crates/toml/src/parse/num.rs"]}
{"id": "C44", "title": "Literal parsers never panic", "statement": "Parsing any bare literal gives a value or a diagnostic and never panics, with or without overflow checks.", "quantifier": "all literals", "why_tests_cant": "unbounded inputs", "anchors": ["crates/toml/src/parse/lit.rs", "crates/toml/src/parse/num.rs", "crates/toml/src/parse/datetime.rs"]}
{"id": "C45", "title": "Inserting never loses keys", "statement": "Mapping a document without duplicate definitions yields a map where looking up each assignment's dotted path gives its value.", "quantifier": "all documents", "why_tests_cant": "unbounded documents", "anchors": ["crates/toml/src/map.rs"]}
{"id": "C46", "title": "Duplicates are reported and first wins", "statement": "Assigning a key twice, re-opening a table or extending an inline table always yields a duplicate diagnostic, and the first value stays.", "quantifier": "all documents", "why_tests_cant": "unbounded documents", "anchors": ["crates/toml/src/map.rs"]}
{"id": "C47", "title": "Representation paths are valid", "statement": "Every parent reference stored in a map entry resolves to an existing table or array of the document, so context lookups never index out of bounds.", "quantifier": "all documents", "why_tests_cant": "unbounded documents", "anchors": ["crates/toml/src/map.rs: ReprId, ParentId, insert_*"]}
{"id": "C48", "title": "Array-of-tables order", "statement": "The n-th `[[x]]` header adds the n-th entry of array x, and later `[x.y]` headers go to the last entry.", "quantifier": "all documents", "why_tests_cant": "unbounded documents", "anchors": ["crates/toml/src/map.rs"]}
{"id": "C49", "title": "Dependency source decision table", "statement": "A dependency entry yields a registry, path or git source according to which of version/registry/path/git/branch/tag/rev/workspace keys are present, and each contradictory combination is reported; its package is the one named by the package key, and otherwise the one with its own name.", "quantifier": "all combinations of keys and value kinds", "why_tests_cant": "2^n combinations times value kinds", "anchors": ["crates/ide/src/check.rs: parse_dependency, DepBuilder::try_build"]}
{"id": "C50", "title": "check is independent of map iteration order", "statement": "The set of dependencies and diagnostics produced does not depend on the hash map's iteration order.", "quantifier": "all documents and all iteration orders", "why_tests_cant": "the iteration order is random at runtime", "anchors": ["crates/ide/src/check.rs"]}
{"id": "C51", "title": "Unknown keys are reported", "statement": "Each key of a dependency table that is not a known key gives exactly one warning and each known key gives none.", "quantifier": "all tables", "why_tests_cant": "unbounded tables", "anchors": ["crates/ide/src/check.rs"]}
{"id": "C52", "title": "Diagnostics mark/reset", "statement": "Resetting to a mark removes exactly the diagnostics pushed since then.", "quantifier": "all histories", "why_tests_cant": "unbounded histories", "anchors": ["crates/common/src/diagnostic.rs"]}
{"id": "C53", "title": "Diagnostics sort is a stable permutation", "statement": "Sorting diagnostics keeps every diagnostic, orders them by start position, and keeps the relative order of equal positions.", "quantifier": "all lists", "why_tests_cant": "unbounded lists", "anchors": ["crates/common/src/diagnostic.rs"]}
{"id": "C54", "title": "Line splitting", "statement": "Line splitting partitions the text at line feeds and strips the line terminators only.", "quantifier": "all texts", "why_tests_cant": "unbounded inputs", "anchors": ["crates/common/src/diagnostic.rs: lines"]}
{"id": "C55", "title": "Feature order is total", "statement": "The ordering on feature members is total and consistent with equality.", "quantifier": "all feature members", "why_tests_cant": "order axioms over all triples", "anchors": ["crates/ide/src/index.rs: FeatureMember"]}
{"id": "C56", "title": "Index files", "statement": "An index file is accepted exactly if it has at least one line, every line is a valid description, and all have the same name; then the crate has that name and exactly the described versions in ascending order, where each feature lists its members sorted, and members that name an optional dependency are written dep:name.", "quantifier": "all index files", "why_tests_cant": "unbounded inputs", "anchors": ["crates/ide/src/index/fetch.rs: parse_crate"]}
{"id": "C57", "title": "Sparse index URL", "statement": "For every ASCII crate name the URL is base/1/n, base/2/nn, base/3/n/nnn or base/nn/nn/name according to its length, and the buffer is reserved exactly.", "quantifier": "all crate names", "why_tests_cant": "all lengths", "anchors": ["crates/ide/src/index/fetch.rs: sparse_index_url"]}
{"id": "C58", "title": "TOML parser terminates", "statement": "Parsing any text terminates and consumes all of its tokens in order.", "quantifier": "all input texts", "why_tests_cant": "unbounded inputs", "anchors": ["crates/toml/src/parse.rs"]}
{"id": "C59", "title": "Nesting is bounded", "statement": "Values nested deeper than the recursion limit are reported instead of overflowing the stack, and no value of the tree is nested deeper.", "quantifier": "all input texts", "why_tests_cant": "unbounded nesting", "anchors": ["crates/toml/src/parse.rs: RECURSION_LIMIT"]}
{"id": "C60", "title": "TOML parser never panics", "statement": "Parsing any text never panics.", "quantifier": "all input texts", "why_tests_cant": "unbounded inputs; false today for a header whose brackets are on different lines", "anchors": ["crates/toml/src/parse.rs: TableHeader::new, ArrayHeader::new"]}
{"id": "C61", "title": "Literal diagnostics point into the literal", "statement": "The span of every diagnostic produced for a bare literal starts and ends inside that literal.", "quantifier": "all literals and positions", "why_tests_cant": "unbounded inputs", "anchors": ["crates/toml/src/parse/lit.rs", "crates/toml/src/parse/num.rs", "crates/toml/src/parse/datetime.rs", "crates/toml/src/error.rs: Error::span"]}
{"id": "C62", "title": "Booleans", "statement": "A bare literal is read as a boolean exactly when it is spelled true or false.", "quantifier": "all literals", "why_tests_cant": "unbounded inputs", "anchors": ["crates/toml/src/parse/lit.rs: parse_bare_literal"]}
{"id": "C63", "title": "Lexical diagnostics point at characters", "statement": "The span of every diagnostic of the tokenizer starts and ends at character boundaries of the document.", "quantifier": "all input texts", "why_tests_cant": "unbounded inputs; false today for control characters in comments", "anchors": ["crates/toml/src/lex.rs: comment, string, string_escape", "crates/toml/src/error.rs: Error::span"]}
{"id": "C64", "title": "The place of the contents of a string", "statement": "The span of a string's contents computed from its stored offsets is the span between the opening and closing delimiter.", "quantifier": "all input texts, all string tokens", "why_tests_cant": "unbounded inputs; false today for a line break behind the opening delimiter", "anchors": ["crates/toml/src/lex.rs: TextOffset::apply_to, string"]}
{"id": "C65", "title": "Rendering a diagnostic never panics", "statement": "Rendering a diagnostic whose span and hint lie on character boundaries outside of line breaks never panics; the marked text is underlined in its width, in its line, at its column, and the header names its line and column.", "quantifier": "all texts, spans, hints and context lines", "why_tests_cant": "unbounded inputs", "anchors": ["crates/common/src/diagnostic.rs: display, display_header, display_body, display_line, calc_width"]}
{"id": "C66", "title": "Every lexical diagnostic can be rendered", "statement": "The command line can render every diagnostic of the tokenizer.", "quantifier": "all input texts", "why_tests_cant": "unbounded inputs; false today for an unterminated string in a file with Windows line breaks", "anchors": ["crates/common/src/diagnostic.rs: display", "crates/toml/src/lex.rs", "crates/cli/src/main.rs: main"]}
{"id": "C67", "title": "Names in messages are safe to print", "statement": "A name from the document that is printed in a message contains no control characters, and is unchanged if it had none.", "quantifier": "all strings", "why_tests_cant": "unbounded inputs", "anchors": ["crates/common/src/lib.rs: FmtStr, FmtChar"]}
{"id": "C68", "title": "The tree stands in the text", "statement": "Every literal, string, identifier, bracket, comma, dot and equal sign of the parsed tree is what the text has at its place; the unsafe joining of adjacent slices never leaves the text or splits a character.", "quantifier": "all input texts, valid or not", "why_tests_cant": "unbounded inputs; memory safety of unsafe code", "anchors": ["crates/toml/src/parse.rs", "crates/toml/src/parse/lit.rs: concat_strs, extend_str_back, extend_str_front"]}
{"id": "C69", "title": "Parser diagnostics point into the text", "statement": "The parser keeps the diagnostics of the tokenizer, and each one it adds points to a piece of the text, from before some character to behind some character; the opening bracket named by a diagnostic about a missing closing bracket is such a bracket of the text.", "quantifier": "all input texts", "why_tests_cant": "unbounded inputs", "anchors": ["crates/toml/src/parse.rs", "crates/toml/src/error.rs: Error::span"]}
{"id": "C70", "title": "Comments are kept", "statement": "If a text gives no diagnostics, every comment in it is kept exactly once, with its text and place; comment ranges are in bounds for every text.", "quantifier": "all input texts", "why_tests_cant": "unbounded inputs", "anchors": ["crates/toml/src/parse.rs: store_comment, add_comment, mark_comments_above, find_associated_comments"]}
{"id": "C71", "title": "Exactly the TOML grammar", "statement": "A text is read without any diagnostic exactly if it follows the grammar of TOML documents (with the documented liberties in literals) and nests at most 100 brackets.", "quantifier": "all input texts", "why_tests_cant": "unbounded inputs; soundness and completeness against a grammar", "anchors": ["crates/toml/src/parse.rs: parse, parse_key, parse_value", "crates/toml/src/lex.rs: lex"]}
{"id": "C72", "title": "The tree says what the text says", "statement": "For a text without diagnostics, the tree lists exactly the headers and assignments of the text, in order, with the keys and values the grammar assigns to them; this meaning is unique and the same in builds with and without overflow checks.", "quantifier": "all input texts", "why_tests_cant": "unbounded inputs", "anchors": ["crates/toml/src/parse.rs: parse, parse_key, parse_value"]}
{"id": "C73", "title": "Diagnostics of the map say where the keys collide", "statement": "Each diagnostic of the map of a document names the location of the colliding key, points to the identifier of the key that is rejected and to a representation of the entry that was there before it, and lists the headers around them.", "quantifier": "all documents", "why_tests_cant": "unbounded documents and paths", "anchors": ["crates/toml/src/map.rs: duplicate_key_error, insert_node_at_path, context_lines, Path::fmt_path"]}
{"id": "C74", "title": "The check of a manifest never panics", "statement": "Checking the map of any document neither panics nor overflows; false today in debug builds, since the parser of versions overflows for some numbers.", "quantifier": "all input texts", "why_tests_cant": "unbounded inputs", "anchors": ["crates/ide/src/check.rs: check"]}
{"id": "C75", "title": "The map of a document stands in its text", "statement": "Every key, header, assignment, array element and value that the map of a document refers to is what the text has at its place.", "quantifier": "all input texts", "why_tests_cant": "unbounded inputs", "anchors": ["crates/toml/src/map.rs", "crates/toml/src/parse.rs"]}
{"id": "C76", "title": "The parts of the tree are in the order of the text", "statement": "For any text, the parts of the tree stand in the text in the order of the tree and without overlap, and the range computed for a table, an array entry or an assignment is exactly from its first to its last part; the ranges of tables need brackets not to be split by a multi-line string.", "quantifier": "all input texts", "why_tests_cant": "unbounded inputs and nesting", "anchors": ["crates/toml/src/parse.rs: parse, Ast", "crates/toml/src/map.rs: MapTableEntryRepr::span"]}
{"id": "C77", "title": "The plain values of a document", "statement": "The tree of plain values (strings, numbers, booleans, date-times, arrays, tables) that is made from the map of a document has at every location exactly the value the document says there, keeps the order of the keys and has each key once; the type of a plain value is the type of the node it was made from.", "quantifier": "all input texts, all locations", "why_tests_cant": "unbounded documents and nesting", "anchors": ["crates/toml/src/util.rs: map_simple, map_simple_val, SimpleVal::datatype", "crates/cli/src/main.rs: main"]}
{"id": "C78", "title": "validate prints each diagnostic once", "statement": "`validate` of any file prints one message for each diagnostic of the tokenizer, the parser and the map, ordered by their places, and never panics; it prints none exactly if the file is a TOML document without contradictions, and then the printed values are what the document says.", "quantifier": "all file contents, all terminal widths", "why_tests_cant": "unbounded inputs; never panicking is false today for some invalid files", "anchors": ["crates/cli/src/main.rs: main", "crates/common/src/diagnostic.rs: display", "crates/common/src/lib.rs: Diagnostics::sort", "crates/toml/src/error.rs"]}
{"id": "C79", "title": "check prints each diagnostic once", "statement": "`check` of any manifest prints one message for each diagnostic of the tokenizer, the parser, the map and the check: the errors ordered by their places and then the warnings ordered by their places, for every iteration order of the hash maps, and never panics; it prints none exactly if the file is a TOML document without contradictions in which the check has nothing to report.", "quantifier": "all file contents, all iteration orders, all terminal widths", "why_tests_cant": "unbounded inputs and random iteration order; never panicking is false today for errors in multi-line version strings", "anchors": ["crates/cli/src/main.rs: main", "crates/ide/src/check.rs: check, parse_version_req", "crates/common/src/diagnostic.rs: display", "crates/common/src/lib.rs: Diagnostics::sort"]}
{"id": "C80", "title": "The Neovim plugin shows each diagnostic in the buffer", "statement": "For every buffer the plugin returns one diagnostic for each diagnostic of the tokenizer, the parser, the map and the check, in order, at the same place and with the description as message; each range is inside of the buffer, on character boundaries, and does not end before it starts; there is none exactly if the buffer is a TOML document without contradictions in which the check has nothing to report; all of them are published with their severity.", "quantifier": "all buffers, all iteration orders", "why_tests_cant": "unbounded inputs and random iteration order; false today for multi-line version strings, control characters in comments, headers split over lines, and the severity of warnings", "anchors": ["crates/nvim/src/lib.rs: check_toml, map_vim_diagnostic", "lua/crates_nvim.lua: check_toml"]}
{"id": "C81", "title": "Nothing from the file reaches the terminal unescaped", "statement": "Whatever a file contains, every description, annotation and hint of every diagnostic is one line without control characters, and what the command line prints about it consists of printable characters, tabs, line feeds and the fixed colour sequences only.", "quantifier": "all file contents, all diagnostics, all iteration orders", "why_tests_cant": "unbounded inputs; a security property of all reachable messages", "anchors": ["crates/common/src/diagnostic.rs: display_line", "crates/common/src/lib.rs: FmtStr, FmtChar", "crates/toml/src/error.rs", "crates/ide/src/cargo.rs", "crates/semver/src/error.rs"]}
{"id": "C82", "title": "Lines of an index file", "statement": "A line of an index file is accepted exactly if it is JSON and has each required field exactly once with a value of the right kind (and the optional ones at most once), written as an object or as the array of all fields; then the result is what the line says, unknown fields are ignored, and reading never panics without overflow checks.", "quantifier": "all lines, all JSON trees, all index files", "why_tests_cant": "unbounded inputs and nesting", "anchors": ["crates/ide/src/index/fetch.rs: CrateVersion, CrateDependency", "crates/semver/src/serde.rs"]}
{"id": "C83", "title": "Fetching a crate", "statement": "Fetching a crate asks for its URL in the sparse index; it returns the crate exactly if the answer is a success whose body is the UTF-8 text of a valid index file; every other answer gives the error for it, with the name and the URL, and never a panic without overflow checks.", "quantifier": "all crate names, all answers of the server", "why_tests_cant": "all status codes and all bodies", "anchors": ["crates/ide/src/index/fetch.rs: fetch_crate, fetch_from_url"]}
{"id": "C84", "title": "Serialized versions and requirements are read back", "statement": "Serializing an accepted version or requirement and reading it again gives the same version or requirement; a requirement is serialized as the very text it was read from.", "quantifier": "all accepted texts", "why_tests_cant": "round trip over all inputs", "anchors": ["crates/semver/src/serde.rs"]}
{"id": "C85", "title": "Vectors with at least one element", "statement": "After any history of calls of the safe functions of a vector with at least one element, its first and last elements exist, no access is out of bounds except by an index that is too large, and every place holds the value last written there.", "quantifier": "all histories of calls, all element types", "why_tests_cant": "unbounded histories; memory safety of unsafe code", "anchors": ["crates/toml/src/onevec.rs"]}
{"id": "C86", "title": "An error in one line does not affect the others", "statement": "In a text with damaged lines (lines with any contents that do not open a multi-line string or an array and do not exceed the nesting limit), the tree has all headers and assignments of the other lines, in their order, every diagnostic is in a damaged line, and nothing panics.", "quantifier": "all texts, any number of damaged lines with any contents", "why_tests_cant": "unbounded inputs; error recovery for every kind of damage at once", "anchors": ["crates/toml/src/parse.rs: parse, recover_on", "crates/toml/src/lex.rs: lex, string"]}
{"id": "C87", "title": "A displayed requirement is read back", "statement": "Displaying a requirement that was obtained from the parser never fails, gives a text of the same length as the one it was read from, and parsing that text gives the same requirement (same operators, numbers, tags, wildcards and offsets), in any build and at any place; the alternate form is the same text without leading and trailing spaces.", "quantifier": "all texts that are accepted, all builds", "why_tests_cant": "unbounded texts; depends on the stored offsets of every item", "anchors": ["crates/semver/src/display.rs: VersionReq", "crates/semver/src/parse.rs: parse_requirement"]}
{"id": "C88", "title": "What a diagnostic about a literal says is true", "statement": "Every diagnostic about a bare literal (number, date, time, keyword) is true of its text: the character it names stands at the reported place and is not allowed there, the part of the literal it names (fraction, exponent, month, offset, ...) is the part that is there, bounds and expected characters are the right ones, digits that are said to be missing or too large are, and an integer that is said to overflow is out of range.", "quantifier": "all literals, all places, all builds", "why_tests_cant": "unbounded texts and about thirty kinds of diagnostics, each for all the ways to run into it", "anchors": ["crates/toml/src/parse/num.rs", "crates/toml/src/parse/datetime.rs", "crates/toml/src/parse/lit.rs"]}
{"id": "C89", "title": "What an error about a version says is true", "statement": "Every error of the version and requirement parsers is true of the text: the part of the version it names (major, minor, patch number, tag) is the one at the reported place, everything in front of it is well formed, and the text there has the fault (missing, leading zero, too large, wrong character, empty segment, missing or trailing comma, misplaced wildcard, too many items).", "quantifier": "all texts, positions and builds", "why_tests_cant": "unbounded inputs; false today for the names of the tags and the part in front of trailing characters", "anchors": ["crates/semver/src/parse.rs", "crates/semver/src/error.rs: Error::description"]}
{"id": "C90", "title": "What a diagnostic of the tokenizer says is true", "statement": "Every diagnostic of the tokenizer is true of the text it marks: the string it calls unclosed has no closing delimiter on its line (or up to the end of the document), the character it rejects stands there, inside of a string or comment, and is not allowed there, an escape it rejects is none, a code point it rejects is what the digits say and is none, an escape it calls unfinished has too few digits, excess quotes are in excess.", "quantifier": "all input texts", "why_tests_cant": "unbounded inputs; the truth depends on everything in front of the place; false today for the place of control characters in comments and for one of the quotes marked as excess", "anchors": ["crates/toml/src/lex.rs: string, string_escape, string_escape_unicode, string_closing_quote, comment", "crates/toml/src/error.rs: Error::description"]}
{"id": "C91", "title": "What a diagnostic of the parser says is true", "statement": "Every diagnostic of the parser is true of the tokens of the text: the token it says it found is the one at the marked place and has that name, the thing it says it expected is not there, the bracket it says is unclosed was opened in front of it, the comma, line break or adjacent brackets it says are missing or wrong are, the nesting it calls too deep is behind at least 99 opening brackets, and an error about a literal is true of the literal.", "quantifier": "all input texts, all builds", "why_tests_cant": "unbounded inputs and every kind of diagnostic at every depth; false today for the name of a closing curly bracket and for the place of some trailing commas", "anchors": ["crates/toml/src/parse.rs", "crates/toml/src/error.rs: Error::description"]}
{"id": "C92", "title": "A damaged entry does not affect the others", "statement": "If entries of arrays or assignments of inline tables, at any depth, are damaged (any tokens other than commas, brackets and unclosed strings), commas between entries are missing, an inline table ends with a comma, or lines are damaged, then the tree has all other entries of those arrays and tables and all items of the other lines, in their order, every diagnostic begins in one of the faults or damaged lines, and nothing panics.", "quantifier": "all texts, any number of faults, at any depth up to the nesting limit", "why_tests_cant": "unbounded inputs; error recovery inside of values for every kind of damage at once", "anchors": ["crates/toml/src/parse.rs: parse_value, recover_on", "crates/toml/src/parse.rs: parse"]}
{"id": "C93", "title": "What the comments of a document belong to", "statement": "In a text without diagnostics, the comments of an assignment are exactly those on the lines directly above it, those inside of its value and the one behind it; the comments of a table are those directly above its header, the one behind the header, and those of its lines up to the last comment that is contained in it, i.e. that stands alone, not directly above something, and is followed by an assignment of the table; every other comment on its own line is an item of its own, and no others are; each is marked as above, behind or contained, and its level says whether it belongs to an item in the root.", "quantifier": "all texts without diagnostics, all their lines and comments", "why_tests_cant": "unbounded documents; depends on blank lines, headers and assignments before and behind the comment", "anchors": ["crates/toml/src/parse.rs: parse, find_associated_comments, add_comments, store_comments, CommentRange, AssocComment"]}
{"id": "C94", "title": "The comments of an array", "statement": "The comments that an array has are exactly the associated comments between its brackets, in the order of the text, also for arrays inside of arrays and inline tables and in texts with mistakes; no comment that is an item of its own is between the brackets of an array; in a text without diagnostics they are exactly the comments of the text between the brackets.", "quantifier": "all input texts, all arrays with a closing bracket at any depth", "why_tests_cant": "unbounded inputs and nesting; comments are stored in one list for the whole document and the ranges are computed while it grows", "anchors": ["crates/toml/src/parse.rs: parse_value, add_comment, eat_comment, eat_comment_and_newlines, CommentRange::extend_to"]}
{"id": "C95", "title": "Containers are memory safe", "statement": "Whatever a program does with containers of parsed documents (making, reading and dropping any number of them in any order), no memory is used after it was freed and nothing is freed twice; every container always shows exactly what its own text parses to; when all containers are dropped and nothing panicked, all arenas are freed.", "quantifier": "all histories of calls, all texts", "why_tests_cant": "unbounded histories; safety of unsafe code with extended lifetimes; false today for parse_with, whose function may return a text that is not in the arena", "anchors": ["crates/toml/src/container.rs: Container::parse, Container::parse_with, Container::toml, build_container, Drop"]}
{"id": "C96", "title": "Comments are classified by where they stand", "statement": "If a document is read without diagnostics, every comment the tree keeps stands in the text; a kept comment is marked as a line-end comment exactly if something other than spaces and tabs stands in front of it on its line; a comment that belongs to nothing stands alone on its line; and a comment marked as `above` is on a line above a header, an assignment or an entry of an array, with a comment that stands alone on every line between. Every comment directly above an entry of an array is marked so, and none inside of the brackets of another entry.", "quantifier": "every input text that is read without diagnostics, and every comment of the tree, at any depth of nesting", "why_tests_cant": "The marks are set while values are read, and changed afterwards when an entry of an array ends; whether they are right depends on all of the text in front of the comment and on every way arrays, tables and line breaks can be nested.", "anchors": ["crates/toml/src/parse.rs mark_comments_above", "crates/toml/src/parse.rs find_associated_comments", "crates/toml/src/parse.rs add_comment", "crates/toml/src/parse.rs store_comments"]}
{"id": "C97", "title": "Levels of comments", "statement": "The level of the comments of a header or of an assignment at the top level is 0, and that of an assignment in a table is 1; the level of the comments of an array is the number of tables, arrays and inline tables around it, and that of the comments of its entries is one more; each comment directly in an array that is not above something has the level of the array, or one more if it is a comment of one of its entries.", "quantifier": "all input texts, also with mistakes, all arrays at any depth", "why_tests_cant": "unbounded inputs and nesting; levels are raised afterwards when a comma is found", "anchors": ["crates/toml/src/parse.rs: CommentRange, AssocComment, mark_contained_comments, add_comment, parse_value"]}
{"id": "C98", "title": "The comments of an entry of an array", "statement": "In a text without diagnostics, a comment directly in an array (not in an array inside of it) that is not above something is one of the comments of an entry exactly if it is behind the start of the entry, in front of the next entry, and either behind something on its line or in front of the comma of the entry; so it is a comment of at most one entry.", "quantifier": "all texts without diagnostics, all arrays at any depth, all their comments", "why_tests_cant": "unbounded inputs and nesting; the ranges are extended while the list of comments grows", "anchors": ["crates/toml/src/parse.rs: parse_value, mark_comments_above, add_comment, CommentRange::extend_to"]}
{"id": "C99", "title": "Every part of a document is in the map or is reported", "statement": "After a text was parsed and mapped, every named header and every assignment of its tree, also the assignments inside of inline tables and of inline tables in arrays, is a representation of an entry of the map, with the last name of its key, or it is rejected, or it is inside of a rejected one. There is exactly one diagnostic of the map for each rejected part, in the order of the text, and it marks a name of the key of that part. So if the map reports nothing, nothing of the tree is missing in the map.", "quantifier": "all texts (also those with mistakes), all trees with a name in each key, any nesting of inline tables and arrays", "why_tests_cant": "A test looks for a few keys of a few documents; that nothing is lost silently, for any mixture of headers, dotted keys, duplicates and inline tables, is a statement about all documents.", "anchors": ["crates/toml/src/map.rs: map, insert_top_level_assignments, map_value, insert_node_at_path, insert_node, insert_array_entry_at_path, get_table_to_extend", "crates/toml/src/error.rs: Error"]}
{"id": "C100", "title": "Messages show what they are about", "statement": "The text of every diagnostic shows what the diagnostic stores: the characters or the token that was found, the characters or the delimiter that was expected, the kind of string or number, the part of a date-time or the number of a version, a number that is out of range with its bounds, a code point as a hexadecimal number of the right value, the path of the key and the keys in question, the expected type and the one that is there; and its hint names the bracket, the key, the table or the array that it marks. The prefix 0x is proposed exactly for hexadecimal letters in numbers.", "quantifier": "all diagnostics of the TOML, semver and ide crates, with any characters, names, numbers and types in them", "why_tests_cant": "A test compares the texts of a few diagnostics; that each of the about ninety kinds shows all its parameters, whatever they are, is a statement about all values.", "anchors": ["crates/toml/src/error.rs: Error::description, Error::hint, Hint::annotation", "crates/toml/src/lex.rs: Quote", "crates/semver/src/error.rs: Error::description", "crates/ide/src/cargo.rs: Error::description, Warning::description"]}
{"id": "C101", "title": "What a dependency keeps can be found in the document", "statement": "For each dependency of the result of the check of a manifest, each string and each boolean that it keeps (package, version, registry, path, git, branch, tag, rev, optional, workspace, default-features) can be asked for its key and its place without a panic: the key is the last name in front of the equal sign, with the text of the key it was read from (for a dependency that is only a version: the name of the dependency), it stands in the text, and the place is the piece of the text from this name to the value, or to the comma behind the value. Each feature is a string of the text, an element of the array of the key features.", "quantifier": "all input texts, all orders of the tables, all dependencies and all of their parts", "why_tests_cant": "A test looks at the parts of a few dependencies; keys may be written as dotted keys, headers, inline tables and quoted names, in any combination and at any place.", "anchors": ["crates/ide/src/check.rs: Dependency, DependencySpec, StringAssignment::ident, StringAssignment::span, BoolAssignment::ident, BoolAssignment::span", "crates/toml/src/map.rs: MapTableEntryRepr::repr_span"]}
{"id": "C102", "title": "The forms of the members of a feature", "statement": "A member of a feature of the index is dep:<package> exactly if as_dep gives the package and is_dep is true, has a slash exactly if is_dep_feature is true, and has a question mark in front of a slash exactly if is_weak_dep_feature is true. So for the four documented forms, with names that have none of the characters slash, colon and question mark, the predicates tell the form; no text has two forms; and sorting puts plain features in front of features of dependencies, and these in front of dependencies.", "quantifier": "all texts; all members of the documented forms with any names", "why_tests_cant": "unbounded texts, and pairs of texts for the order", "anchors": ["crates/ide/src/index.rs: FeatureMember"]}
{"id": "C103", "title": "Requirements relate to each other as they read", "statement": "For every version text V and every version: what =V matches is matched by ~V and by ^V, and what these match is matched by >=V; from major version 1 on ~V is narrower than ^V, for major version 0 it is wider. >=V is >V or =V, <=V is <V or =V; no version satisfies both <V and >=V or both >V and <=V, and every release satisfies one of the two. With a release, all later releases satisfy >=V and >V, and all earlier ones <=V and <V. Order, repetition and spaces of the comparators of a requirement do not matter, and adding comparators never lets in another release.", "quantifier": "all version texts (full, partial, with wildcards behind numbers, with tags), all versions including prereleases, all lists of comparators", "why_tests_cant": "unbounded numbers and tags, and pairs of requirements", "anchors": ["crates/semver/src/eval.rs: matches_requirement, matches_exact, matches_greater, matches_less, matches_tilde, matches_caret", "crates/semver/src/parse.rs: parse_requirement", "crates/semver/src/lib.rs: VersionReq::matches"]}
{"id": "C104", "title": "How far a defective date reaches", "statement": "A literal that looks like a date without a time but is no valid date gives one diagnostic and one defective value. If a literal follows on the line within five columns, it belongs to that value, which then goes from the start of the date at least to the end of that literal, and the parser goes on behind it without another diagnostic; if no literal follows within five columns, the value is the date alone and the parser goes on with the token behind it.", "quantifier": "all parser states, all defective dates, all tokens that follow", "why_tests_cant": "unbounded documents and token sequences", "anchors": ["crates/toml/src/parse.rs: parse_value, try_combine_time_part, combine_adjacent_dot_and_lit", "crates/toml/src/parse/lit.rs: parse_literal"]}
{"id": "C105", "title": "What the tokenizer keeps is no larger than the text", "statement": "A text of n characters gives at most n tokens, and the pieces of source text that the tokens keep (words, comments, strings with their delimiters) are together no larger than the text. In a text without lexical diagnostics the decoded contents of all strings are together no larger than the text: no escape sequence makes a string longer, and each string has at least two bytes more in the text than in its contents.", "quantifier": "all input texts", "why_tests_cant": "unbounded inputs; a bound on the memory of every run", "anchors": ["crates/toml/src/lex.rs: lex, Tokens, StringToken"]}
{"id": "C106", "title": "Comparing versions and matching requirements agree", "statement": "For any two versions U and V where V is a release, or U and V are prereleases of the same major.minor.patch: V matches the requirement written >U, >=U, <U, <=U or =U exactly if comparing V with U (without build metadata) gives greater, not less, less, not greater, or equal. Any other prerelease V matches none of these requirements.", "quantifier": "all pairs of versions with any numbers, tags and build metadata", "why_tests_cant": "pairs of unbounded versions across two independent implementations of the order", "anchors": ["crates/semver/src/lib.rs: Ord for Version, Ord for Prerelease, VersionReq::matches", "crates/semver/src/eval.rs: matches_exact, matches_greater, matches_less", "crates/semver/src/parse.rs: parse_requirement"]}
{"id": "C107", "title": "Compatibility of versions is a preorder", "statement": "Every version U (prerelease or not, with any build metadata) matches =U, ~U, ^U, >=U and <=U and neither >U nor <U. For releases: if V matches ^U and W matches ^V then W matches ^U, and the same holds for the tilde; if V matches ^U and U matches ^V, they have the same numbers; V matches ^U exactly if it is not below U and has the same numbers up to the first number of U that is not zero.", "quantifier": "all versions, all pairs and triples of releases", "why_tests_cant": "triples of unbounded versions", "anchors": ["crates/semver/src/eval.rs: matches_caret, matches_tilde, matches_exact", "crates/semver/src/parse.rs: parse_requirement", "crates/semver/src/lib.rs: VersionReq::matches"]}
