import json
P=[]
def p(id,title,statement,quant,why,anchors):
    P.append(dict(id=id,title=title,statement=statement,quantifier=quant,why_tests_cant=why,anchors=anchors))
S="crates/semver/src/"
T="crates/toml/src/"
I="crates/ide/src/"
C="crates/common/src/"
p("C01","Prerelease ordering is a total order consistent with equality","Comparing two prerelease tags (`Ord::cmp` on Prerelease) is antisymmetric, transitive and total, and returns Equal exactly when the two tags are the same string, so sorting versions is well defined.","all pairs/triples of prerelease strings","sorting correctness needs the order axioms for every triple of strings; tests sample a few",[S+"lib.rs: impl Ord for Prerelease"])
p("C02","Prerelease ordering is SemVer 2.0 precedence","For any two syntactically valid prerelease tags, the comparison agrees with SemVer 2.0 section 11: a release is greater than any prerelease; identifiers are compared left to right, numeric ones by numeric value, alphanumeric ones in ASCII order, numeric below alphanumeric, and a longer list of identifiers wins when all earlier ones are equal.","all valid prerelease tags, of any length and number of identifiers","unbounded digit strings and identifier lists",[S+"lib.rs: impl Ord for Prerelease"])
p("C03","Build metadata ordering is a total order consistent with equality","Comparing two build-metadata tags is antisymmetric, transitive, total, and Equal exactly on identical strings; all-digit identifiers are ordered by numeric value first and then by their number of leading zeros.","all pairs/triples of build metadata strings","order axioms range over every triple of strings",[S+"lib.rs: impl Ord for BuildMetadata"])
p("C04","Version ordering is a lexicographic total order","Versions are ordered by major, then minor, then patch, then prerelease, then build metadata; that order is total, transitive, and Equal exactly on equal versions.","all versions","order axioms range over every triple of versions",[S+"lib.rs: struct Version derive(PartialOrd, Ord)"])
p("C05","Matching a parsed requirement never panics","If parse_requirement accepted a string, then evaluating the requirement against any version never reaches the `unreachable!` branches for `>*`, `<*` or `^*`.","every input string accepted by parse_requirement and every version","the panic arms depend on the set of all parser outputs",[S+"eval.rs: matches_requirement, matches_greater, matches_less, matches_caret",S+"parse.rs: parse_requirement"])
p("C06","Exact requirements","`=A.B.C-pre` matches exactly the version with those fields (any build metadata); with omitted minor/patch fields it matches every release version that agrees on the given fields.","all comparators and versions","all u32 triples and tags",[S+"eval.rs: matches_exact"])
p("C07","Caret requirements are the documented half-open intervals","A release version matches `^A.B.C` iff it is >= A.B.C and < the next version that changes the left-most non-zero component (A+1.0.0, 0.B+1.0, 0.0.C+1), with the Cargo rules for `^A.B`, `^A`, `^0.0` and `^0`.","all comparators and versions","all u32 triples",[S+"eval.rs: matches_caret"])
p("C08","Tilde requirements are the documented half-open intervals","A release version matches `~A.B.C` iff A.B.C <= v < A.(B+1).0, `~A.B` iff A.B.0 <= v < A.(B+1).0, `~A` iff A.0.0 <= v < (A+1).0.0.","all comparators and versions","all u32 triples",[S+"eval.rs: matches_tilde"])
p("C09","Inequality requirements","For release versions, `>`/`>=`/`<`/`<=` with a full version are the order relations on versions ignoring build metadata; with a partial version `>A.B` means >= A.(B+1).0, `<=A.B` means < A.(B+1).0, `>=A.B` means >= A.B.0 and `<A.B` means < A.B.0 (same with only A).","all comparators and versions","all u32 triples and tags",[S+"eval.rs: matches_greater, matches_less, matches_impl"])
p("C10","Wildcard requirements","`*` matches every release version and no prerelease; `A.*` (also `A.*.*`) matches exactly the release versions with major A; `A.B.*` exactly those with major A and minor B; the wildcard character used (`*`, `x`, `X`) does not matter.","all wildcard comparators and versions","all u32 values",[S+"eval.rs: matches_impl, matches_exact",S+"parse.rs: comp_version"])
p("C11","A requirement is the conjunction of its comparators plus the prerelease opt-in rule","A requirement matches a version iff every comparator matches it and, when the version has a prerelease tag, at least one comparator has a prerelease tag on the same major.minor.patch.","all requirements and versions","any number of comparators",[S+"eval.rs: matches_requirement, pre_is_compatible"])
p("C12","Build metadata never affects matching","Changing the build metadata of the version or of any comparator never changes whether a requirement matches.","all requirements, versions, metadata","universally quantified over tags",[S+"eval.rs"])
p("C13","A blank requirement is a caret requirement","`1.2.3` and `^1.2.3` match exactly the same versions, for every version text.","all comparator versions and versions","universal",[S+"eval.rs: matches_impl",S+"lib.rs: Op::Bl"])
p("C14","Matching release versions form an interval","If two release versions match a requirement then every release version between them matches too.","all parsed requirements, all triples of release versions","universal over requirements with up to 32 comparators",[S+"eval.rs: matches_requirement"])
p("C15","Version display/parse round trip","Displaying any version obtained from the parser and parsing the text again gives an equal version.","all parsed versions","unbounded tags, all u32",[S+"display.rs: Display for Version",S+"parse.rs: parse_version"])
p("C16","Version parse/display round trip","If parse_version accepts a text, displaying the result gives the text back with leading and trailing spaces removed (no field is lost, no digit is changed).","all input texts","unbounded inputs; fails today for fields in 2^32..2^32+3 in release builds",[S+"parse.rs: parse_version, parse_int",S+"display.rs"])
p("C17","Requirement display is lossless","If parse_requirement accepts a text, formatting the result with `{}` reproduces the text exactly, including all spacing and the wildcard characters used.","all input texts","unbounded inputs",[S+"display.rs: Display for VersionReq",S+"parse.rs: parse_requirement"])
p("C18","Alternate requirement display is the trimmed text","Formatting an accepted requirement with `{:#}` gives the input text with leading and trailing spaces removed and nothing else changed.","all input texts","unbounded inputs",[S+"display.rs"])
p("C19","parse_version accepts exactly the SemVer grammar","parse_version succeeds exactly on texts of the form: spaces, MAJOR.MINOR.PATCH without leading zeros and fitting u32, optional -prerelease, optional +build, spaces; with identifiers as in SemVer 2.0.","all input texts","unbounded inputs; soundness and completeness against a grammar",[S+"parse.rs: parse_version, parse_int, parse_ident"])
p("C20","Numeric fields are exact or rejected","A numeric version field is parsed to exactly the number written, or rejected with an overflow error when it does not fit 32 bits.","all digit strings","needs all digit strings; false today at 4294967296..4294967299 (and prefixes)",[S+"parse.rs: parse_int"])
p("C21","At most 32 comparators","An accepted requirement has between 1 and 32 comparators.","all input texts","unbounded inputs",[S+"parse.rs: parse_requirement, MAX_COMPARATORS"])
p("C22","Semver error spans lie inside the input","Every error returned by parse_version / parse_requirement points to a position between the given start position and the end of the text (a start offset and length inside the text, on character boundaries).","all input texts and start positions","unbounded inputs",[S+"parse.rs",S+"error.rs"])
p("C23","A lone wildcard is the sole comparator","In an accepted requirement, a comparator that is a bare `*`/`x`/`X` is the only comparator.","all input texts","unbounded inputs",[S+"parse.rs: parse_requirement"])
p("C24","Semver parsers never panic","parse_version and parse_requirement return a result for every text, in builds with and without overflow checks.","all input texts","unbounded inputs; false today in builds with overflow checks",[S+"parse.rs: parse_int"])
p("C25","Offsets stored in comparators are faithful","In an accepted requirement the stored offsets are ordered (op <= version < comma < next op), inside the text, and the text at each offset is the operator, version or comma recorded; shifting the start position changes nothing but positions.","all input texts","unbounded inputs",[S+"lib.rs: Comparator",S+"parse.rs: parse_requirement"])
p("C26","Accepted identifiers are non-empty ASCII","Any prerelease or build tag handed to the unsafe InlineStr constructor consists only of ASCII letters, digits, hyphens and dots, contains no NUL byte, and has no empty segment.","all input texts","unsafe precondition must hold for every input",[S+"parse.rs: parse_ident, new_unchecked call sites",S+"inlinestr.rs: new_unchecked"])
p("C27","InlineStr stores strings faithfully","Building an inline string from a text that satisfies the documented precondition and reading it back gives the same text, whether it is empty, inlined in 8 bytes or on the heap.","all admissible strings","all byte contents and lengths",[S+"inlinestr.rs: new_unchecked, as_str, len"])
p("C28","InlineStr equality is string equality","Two inline strings compare equal iff they hold the same text, regardless of representation.","all pairs of admissible strings","all byte contents and lengths",[S+"inlinestr.rs: PartialEq"])
p("C29","InlineStr heap discipline","Over any history of construction, cloning and dropping, every heap buffer is freed exactly once, reads only touch live buffers, and dropping everything leaves no allocation.","all operation histories","any interleaving of operations of any length",[S+"inlinestr.rs: Drop, Clone, new_unchecked"])
p("C30","The TOML lexer is total","Lexing returns a token list ending in exactly one EOF token for every text.","all input texts","unbounded inputs",[T+"lex.rs: lex, Lexer"])
p("C31","Token positions are ordered and in bounds","Token positions strictly increase through the token list and lie inside the text, and a word token's text is the slice of the input at its position.","all input texts","unbounded inputs",[T+"lex.rs"])
p("C32","The lexer never drops text","Every character of the input outside of spaces, tabs and line breaks is covered by exactly one token or reported in a diagnostic.","all input texts","unbounded inputs",[T+"lex.rs"])
p("C33","Exactly the TOML token grammar","A text gives no lexical diagnostic exactly when it follows the token grammar of TOML (strings, escapes, comments, bare words, punctuation, line breaks), and then the tokens, including the decoded contents of the strings, are the ones the grammar assigns; in particular escapes become the code points TOML assigns and literal strings are verbatim.","all input texts","unbounded inputs, all code points",[T+"lex.rs: lex, string, string_escape"])
p("C34","Positions count lines and bytes","A token's line is the number of line feeds before it and its column the number of bytes since the last one.","all input texts","unbounded inputs",[T+"lex.rs"])
p("C35","Decimal integers are exact or rejected","An accepted decimal integer literal has exactly the value written and fits i64; any literal out of range is reported as overflow.","all digit strings with underscores and signs","all digit strings",[T+"parse/num.rs: parse_num_or_date, parse_int_or_float_or_date"])
p("C36","Prefixed integers are exact or rejected","An accepted 0x/0o/0b literal has exactly the value written and fits in i64; too large literals are reported as overflow.","all prefixed literals","all digit strings; false today (silent wrap-around)",[T+"parse/num.rs: parse_prefixed_int"])
p("C37","Underscore placement","An accepted integer literal has no leading, trailing or doubled underscore.","all literals","unbounded inputs",[T+"parse/num.rs"])
p("C38","Float grammar","A literal is accepted as a float only if, after removing underscores placed between digits, it has the TOML float form.","all literals","unbounded inputs",[T+"parse/num.rs: parse_float"])
p("C39","Date-time fields are always valid","Any accepted date or time literal has a real calendar date (month 1-12, day valid for the month and year), hour <= 23, minute <= 59, second <= 60 rules as documented, nanoseconds < 10^9 and an offset in range.","all literals","all digit combinations",[T+"parse/datetime.rs",T+"datetime.rs"])
p("C40","Date-time round trip","Formatting any valid date, time or offset date-time in RFC 3339 form and parsing it gives the same value.","all valid date-times","all field combinations",[T+"parse/datetime.rs",T+"datetime.rs"])
p("C41","No trailing junk after a date-time","A literal is accepted as a date-time only if nothing follows the date-time.","all literals","unbounded inputs; false today after an offset",[T+"parse/datetime.rs"])
p("C42","No underscores in date-times","A literal containing an underscore is never accepted as a date or time.","all literals","unbounded inputs; false today",[T+"parse/num.rs",T+"parse/datetime.rs",T+"parse/lit.rs"])
p("C43","Only lower-case inf/nan","A literal is accepted as infinity or NaN only if it is spelled inf/nan with optional sign.","all literals","unbounded inputs; false today with a sign",[T+"parse/lit.rs: parse_bare_literal",T+"parse/num.rs"])
p("C44","Literal parsers never panic","Parsing any bare literal gives a value or a diagnostic and never panics, with or without overflow checks.","all literals","unbounded inputs",[T+"parse/lit.rs",T+"parse/num.rs",T+"parse/datetime.rs"])
p("C45","Inserting never loses keys","Mapping a document without duplicate definitions yields a map where looking up each assignment's dotted path gives its value.","all documents","unbounded documents",[T+"map.rs"])
p("C46","Duplicates are reported and first wins","Assigning a key twice, re-opening a table or extending an inline table always yields a duplicate diagnostic, and the first value stays.","all documents","unbounded documents",[T+"map.rs"])
p("C47","Representation paths are valid","Every parent reference stored in a map entry resolves to an existing table or array of the document, so context lookups never index out of bounds.","all documents","unbounded documents",[T+"map.rs: ReprId, ParentId, insert_*"])
p("C48","Array-of-tables order","The n-th `[[x]]` header adds the n-th entry of array x, and later `[x.y]` headers go to the last entry.","all documents","unbounded documents",[T+"map.rs"])
p("C49","Dependency source decision table","A dependency entry yields a registry, path or git source according to which of version/registry/path/git/branch/tag/rev/workspace keys are present, and each contradictory combination is reported; its package is the one named by the package key, and otherwise the one with its own name.","all combinations of keys and value kinds","2^n combinations times value kinds",[I+"check.rs: parse_dependency, DepBuilder::try_build"])
p("C50","check is independent of map iteration order","The set of dependencies and diagnostics produced does not depend on the hash map's iteration order.","all documents and all iteration orders","the iteration order is random at runtime",[I+"check.rs"])
p("C51","Unknown keys are reported","Each key of a dependency table that is not a known key gives exactly one warning and each known key gives none.","all tables","unbounded tables",[I+"check.rs"])
p("C52","Diagnostics mark/reset","Resetting to a mark removes exactly the diagnostics pushed since then.","all histories","unbounded histories",[C+"diagnostic.rs"])
p("C53","Diagnostics sort is a stable permutation","Sorting diagnostics keeps every diagnostic, orders them by start position, and keeps the relative order of equal positions.","all lists","unbounded lists",[C+"diagnostic.rs"])
p("C54","Line splitting","Line splitting partitions the text at line feeds and strips the line terminators only.","all texts","unbounded inputs",[C+"diagnostic.rs: lines"])
p("C55","Feature order is total","The ordering on feature members is total and consistent with equality.","all feature members","order axioms over all triples",[I+"index.rs: FeatureMember"])
p("C56","Index files","An index file is accepted exactly if it has at least one line, every line is a valid description, and all have the same name; then the crate has that name and exactly the described versions in ascending order, where each feature lists its members sorted, and members that name an optional dependency are written dep:name.","all index files","unbounded inputs",[I+"index/fetch.rs: parse_crate"])
p("C57","Sparse index URL","For every ASCII crate name the URL is base/1/n, base/2/nn, base/3/n/nnn or base/nn/nn/name according to its length, and the buffer is reserved exactly.","all crate names","all lengths",[I+"index/fetch.rs: sparse_index_url"])
p("C58","TOML parser terminates","Parsing any text terminates and consumes all of its tokens in order.","all input texts","unbounded inputs",[T+"parse.rs"])
p("C59","Nesting is bounded","Values nested deeper than the recursion limit are reported instead of overflowing the stack, and no value of the tree is nested deeper.","all input texts","unbounded nesting",[T+"parse.rs: RECURSION_LIMIT"])
p("C60","TOML parser never panics","Parsing any text never panics.","all input texts","unbounded inputs; false today for a header whose brackets are on different lines",[T+"parse.rs: TableHeader::new, ArrayHeader::new"])
p("C61","Literal diagnostics point into the literal","The span of every diagnostic produced for a bare literal starts and ends inside that literal.","all literals and positions","unbounded inputs",[T+"parse/lit.rs",T+"parse/num.rs",T+"parse/datetime.rs",T+"error.rs: Error::span"])
p("C62","Booleans","A bare literal is read as a boolean exactly when it is spelled true or false.","all literals","unbounded inputs",[T+"parse/lit.rs: parse_bare_literal"])
p("C63","Lexical diagnostics point at characters","The span of every diagnostic of the tokenizer starts and ends at character boundaries of the document.","all input texts","unbounded inputs; false today for control characters in comments",[T+"lex.rs: comment, string, string_escape",T+"error.rs: Error::span"])
p("C64","The place of the contents of a string","The span of a string's contents computed from its stored offsets is the span between the opening and closing delimiter.","all input texts, all string tokens","unbounded inputs; false today for a line break behind the opening delimiter",[T+"lex.rs: TextOffset::apply_to, string"])
p("C65","Rendering a diagnostic never panics","Rendering a diagnostic whose span and hint lie on character boundaries outside of line breaks never panics; the marked text is underlined in its width, in its line, at its column, and the header names its line and column.","all texts, spans, hints and context lines","unbounded inputs",[C+"diagnostic.rs: display, display_header, display_body, display_line, calc_width"])
p("C66","Every lexical diagnostic can be rendered","The command line can render every diagnostic of the tokenizer.","all input texts","unbounded inputs; false today for an unterminated string in a file with Windows line breaks",[C+"diagnostic.rs: display",T+"lex.rs","crates/cli/src/main.rs: main"])
p("C67","Names in messages are safe to print","A name from the document that is printed in a message contains no control characters, and is unchanged if it had none.","all strings","unbounded inputs",[C+"lib.rs: FmtStr, FmtChar"])
p("C68","The tree stands in the text","Every literal, string, identifier, bracket, comma, dot and equal sign of the parsed tree is what the text has at its place; the unsafe joining of adjacent slices never leaves the text or splits a character.","all input texts, valid or not","unbounded inputs; memory safety of unsafe code",[T+"parse.rs",T+"parse/lit.rs: concat_strs, extend_str_back, extend_str_front"])
p("C69","Parser diagnostics point into the text","The parser keeps the diagnostics of the tokenizer, and each one it adds points to a piece of the text, from before some character to behind some character; the opening bracket named by a diagnostic about a missing closing bracket is such a bracket of the text.","all input texts","unbounded inputs",[T+"parse.rs",T+"error.rs: Error::span"])
p("C70","Comments are kept","If a text gives no diagnostics, every comment in it is kept exactly once, with its text and place; comment ranges are in bounds for every text.","all input texts","unbounded inputs",[T+"parse.rs: store_comment, add_comment, mark_comments_above, find_associated_comments"])
p("C71","Exactly the TOML grammar","A text is read without any diagnostic exactly if it follows the grammar of TOML documents (with the documented liberties in literals) and nests at most 100 brackets.","all input texts","unbounded inputs; soundness and completeness against a grammar",[T+"parse.rs: parse, parse_key, parse_value",T+"lex.rs: lex"])
p("C72","The tree says what the text says","For a text without diagnostics, the tree lists exactly the headers and assignments of the text, in order, with the keys and values the grammar assigns to them; this meaning is unique and the same in builds with and without overflow checks.","all input texts","unbounded inputs",[T+"parse.rs: parse, parse_key, parse_value"])
p("C73","Diagnostics of the map say where the keys collide","Each diagnostic of the map of a document names the location of the colliding key, points to the identifier of the key that is rejected and to a representation of the entry that was there before it, and lists the headers around them.","all documents","unbounded documents and paths",[T+"map.rs: duplicate_key_error, insert_node_at_path, context_lines, Path::fmt_path"])
p("C74","The check of a manifest never panics","Checking the map of any document neither panics nor overflows; false today in debug builds, since the parser of versions overflows for some numbers.","all input texts","unbounded inputs",[I+"check.rs: check"])
p("C75","The map of a document stands in its text","Every key, header, assignment, array element and value that the map of a document refers to is what the text has at its place.","all input texts","unbounded inputs",[T+"map.rs",T+"parse.rs"])
p("C76","The parts of the tree are in the order of the text","For any text, the parts of the tree stand in the text in the order of the tree and without overlap, and the range computed for a table, an array entry or an assignment is exactly from its first to its last part; the ranges of tables need brackets not to be split by a multi-line string.","all input texts","unbounded inputs and nesting",[T+"parse.rs: parse, Ast",T+"map.rs: MapTableEntryRepr::span"])
p("C77","The plain values of a document","The tree of plain values (strings, numbers, booleans, date-times, arrays, tables) that is made from the map of a document has at every location exactly the value the document says there, keeps the order of the keys and has each key once; the type of a plain value is the type of the node it was made from.","all input texts, all locations","unbounded documents and nesting",[T+"util.rs: map_simple, map_simple_val, SimpleVal::datatype","crates/cli/src/main.rs: main"])
p("C78","validate prints each diagnostic once","`validate` of any file prints one message for each diagnostic of the tokenizer, the parser and the map, ordered by their places, and never panics; it prints none exactly if the file is a TOML document without contradictions, and then the printed values are what the document says.","all file contents, all terminal widths","unbounded inputs; never panicking is false today for some invalid files",["crates/cli/src/main.rs: main",C+"diagnostic.rs: display",C+"lib.rs: Diagnostics::sort",T+"error.rs"])
p("C79","check prints each diagnostic once","`check` of any manifest prints one message for each diagnostic of the tokenizer, the parser, the map and the check: the errors ordered by their places and then the warnings ordered by their places, for every iteration order of the hash maps, and never panics; it prints none exactly if the file is a TOML document without contradictions in which the check has nothing to report.","all file contents, all iteration orders, all terminal widths","unbounded inputs and random iteration order; never panicking is false today for errors in multi-line version strings",["crates/cli/src/main.rs: main",I+"check.rs: check, parse_version_req",C+"diagnostic.rs: display",C+"lib.rs: Diagnostics::sort"])
p("C80","The Neovim plugin shows each diagnostic in the buffer","For every buffer the plugin returns one diagnostic for each diagnostic of the tokenizer, the parser, the map and the check, in order, at the same place and with the description as message; each range is inside of the buffer, on character boundaries, and does not end before it starts; there is none exactly if the buffer is a TOML document without contradictions in which the check has nothing to report; all of them are published with their severity.","all buffers, all iteration orders","unbounded inputs and random iteration order; false today for multi-line version strings, control characters in comments, headers split over lines, and the severity of warnings",["crates/nvim/src/lib.rs: check_toml, map_vim_diagnostic","lua/crates_nvim.lua: check_toml"])
p("C81","Nothing from the file reaches the terminal unescaped","Whatever a file contains, every description, annotation and hint of every diagnostic is one line without control characters, and what the command line prints about it consists of printable characters, tabs, line feeds and the fixed colour sequences only.","all file contents, all diagnostics, all iteration orders","unbounded inputs; a security property of all reachable messages",[C+"diagnostic.rs: display_line",C+"lib.rs: FmtStr, FmtChar",T+"error.rs",I+"cargo.rs","crates/semver/src/error.rs"])
p("C82","Lines of an index file","A line of an index file is accepted exactly if it is JSON and has each required field exactly once with a value of the right kind (and the optional ones at most once), written as an object or as the array of all fields; then the result is what the line says, unknown fields are ignored, and reading never panics without overflow checks.","all lines, all JSON trees, all index files","unbounded inputs and nesting",[I+"index/fetch.rs: CrateVersion, CrateDependency","crates/semver/src/serde.rs"])
p("C83","Fetching a crate","Fetching a crate asks for its URL in the sparse index; it returns the crate exactly if the answer is a success whose body is the UTF-8 text of a valid index file; every other answer gives the error for it, with the name and the URL, and never a panic without overflow checks.","all crate names, all answers of the server","all status codes and all bodies",[I+"index/fetch.rs: fetch_crate, fetch_from_url"])
p("C84","Serialized versions and requirements are read back","Serializing an accepted version or requirement and reading it again gives the same version or requirement; a requirement is serialized as the very text it was read from.","all accepted texts","round trip over all inputs",["crates/semver/src/serde.rs"])
p("C85","Vectors with at least one element","After any history of calls of the safe functions of a vector with at least one element, its first and last elements exist, no access is out of bounds except by an index that is too large, and every place holds the value last written there.","all histories of calls, all element types","unbounded histories; memory safety of unsafe code",[T+"onevec.rs"])
p("C86","An error in one line does not affect the others","In a text with damaged lines (lines with any contents that do not open a multi-line string or an array and do not exceed the nesting limit), the tree has all headers and assignments of the other lines, in their order, every diagnostic is in a damaged line, and nothing panics.","all texts, any number of damaged lines with any contents","unbounded inputs; error recovery for every kind of damage at once",[T+"parse.rs: parse, recover_on",T+"lex.rs: lex, string"])
p("C87","A displayed requirement is read back","Displaying a requirement that was obtained from the parser never fails, gives a text of the same length as the one it was read from, and parsing that text gives the same requirement (same operators, numbers, tags, wildcards and offsets), in any build and at any place; the alternate form is the same text without leading and trailing spaces.","all texts that are accepted, all builds","unbounded texts; depends on the stored offsets of every item",[S+"display.rs: VersionReq",S+"parse.rs: parse_requirement"])
p("C88","What a diagnostic about a literal says is true","Every diagnostic about a bare literal (number, date, time, keyword) is true of its text: the character it names stands at the reported place and is not allowed there, the part of the literal it names (fraction, exponent, month, offset, ...) is the part that is there, bounds and expected characters are the right ones, digits that are said to be missing or too large are, and an integer that is said to overflow is out of range.","all literals, all places, all builds","unbounded texts and about thirty kinds of diagnostics, each for all the ways to run into it",[T+"parse/num.rs",T+"parse/datetime.rs",T+"parse/lit.rs"])
p("C89","What an error about a version says is true","Every error of the version and requirement parsers is true of the text: the part of the version it names (major, minor, patch number, tag) is the one at the reported place, everything in front of it is well formed, and the text there has the fault (missing, leading zero, too large, wrong character, empty segment, missing or trailing comma, misplaced wildcard, too many items).","all texts, positions and builds","unbounded inputs; false today for the names of the tags and the part in front of trailing characters",[S+"parse.rs",S+"error.rs: Error::description"])
p("C90","What a diagnostic of the tokenizer says is true","Every diagnostic of the tokenizer is true of the text it marks: the string it calls unclosed has no closing delimiter on its line (or up to the end of the document), the character it rejects stands there, inside of a string or comment, and is not allowed there, an escape it rejects is none, a code point it rejects is what the digits say and is none, an escape it calls unfinished has too few digits, excess quotes are in excess.","all input texts","unbounded inputs; the truth depends on everything in front of the place; false today for the place of control characters in comments and for one of the quotes marked as excess",[T+"lex.rs: string, string_escape, string_escape_unicode, string_closing_quote, comment",T+"error.rs: Error::description"])
p("C91","What a diagnostic of the parser says is true","Every diagnostic of the parser is true of the tokens of the text: the token it says it found is the one at the marked place and has that name, the thing it says it expected is not there, the bracket it says is unclosed was opened in front of it, the comma, line break or adjacent brackets it says are missing or wrong are, the nesting it calls too deep is behind at least 99 opening brackets, and an error about a literal is true of the literal.","all input texts, all builds","unbounded inputs and every kind of diagnostic at every depth; false today for the name of a closing curly bracket and for the place of some trailing commas",[T+"parse.rs",T+"error.rs: Error::description"])
p("C92","A damaged entry does not affect the others","If entries of arrays or assignments of inline tables, at any depth, are damaged (any tokens other than commas, brackets and unclosed strings), commas between entries are missing, an inline table ends with a comma, or lines are damaged, then the tree has all other entries of those arrays and tables and all items of the other lines, in their order, every diagnostic begins in one of the faults or damaged lines, and nothing panics.","all texts, any number of faults, at any depth up to the nesting limit","unbounded inputs; error recovery inside of values for every kind of damage at once",[T+"parse.rs: parse_value, recover_on",T+"parse.rs: parse"])
p("C93","What the comments of a document belong to","In a text without diagnostics, the comments of an assignment are exactly those on the lines directly above it, those inside of its value and the one behind it; the comments of a table are those directly above its header, the one behind the header, and those of its lines up to the last comment that is contained in it, i.e. that stands alone, not directly above something, and is followed by an assignment of the table; every other comment on its own line is an item of its own, and no others are; each is marked as above, behind or contained, and its level says whether it belongs to an item in the root.","all texts without diagnostics, all their lines and comments","unbounded documents; depends on blank lines, headers and assignments before and behind the comment",[T+"parse.rs: parse, find_associated_comments, add_comments, store_comments, CommentRange, AssocComment"])
p("C94","The comments of an array","The comments that an array has are exactly the associated comments between its brackets, in the order of the text, also for arrays inside of arrays and inline tables and in texts with mistakes; no comment that is an item of its own is between the brackets of an array; in a text without diagnostics they are exactly the comments of the text between the brackets.","all input texts, all arrays with a closing bracket at any depth","unbounded inputs and nesting; comments are stored in one list for the whole document and the ranges are computed while it grows",[T+"parse.rs: parse_value, add_comment, eat_comment, eat_comment_and_newlines, CommentRange::extend_to"])
p("C95","Containers are memory safe","Whatever a program does with containers of parsed documents (making, reading and dropping any number of them in any order), no memory is used after it was freed and nothing is freed twice; every container always shows exactly what its own text parses to; when all containers are dropped and nothing panicked, all arenas are freed.","all histories of calls, all texts","unbounded histories; safety of unsafe code with extended lifetimes; false today for parse_with, whose function may return a text that is not in the arena",[T+"container.rs: Container::parse, Container::parse_with, Container::toml, build_container, Drop"])
p("C96","Comments are classified by where they stand","If a document is read without diagnostics, every comment the tree keeps stands in the text; a kept comment is marked as a line-end comment exactly if something other than spaces and tabs stands in front of it on its line; a comment that belongs to nothing stands alone on its line; and a comment marked as `above` is on a line above a header, an assignment or an entry of an array, with a comment that stands alone on every line between. Every comment directly above an entry of an array is marked so, and none inside of the brackets of another entry.","every input text that is read without diagnostics, and every comment of the tree, at any depth of nesting","The marks are set while values are read, and changed afterwards when an entry of an array ends; whether they are right depends on all of the text in front of the comment and on every way arrays, tables and line breaks can be nested.",[T+"parse.rs mark_comments_above",T+"parse.rs find_associated_comments",T+"parse.rs add_comment",T+"parse.rs store_comments"])
p("C97","Levels of comments","The level of the comments of a header or of an assignment at the top level is 0, and that of an assignment in a table is 1; the level of the comments of an array is the number of tables, arrays and inline tables around it, and that of the comments of its entries is one more; each comment directly in an array that is not above something has the level of the array, or one more if it is a comment of one of its entries.","all input texts, also with mistakes, all arrays at any depth","unbounded inputs and nesting; levels are raised afterwards when a comma is found",[T+"parse.rs: CommentRange, AssocComment, mark_contained_comments, add_comment, parse_value"])
p("C98","The comments of an entry of an array","In a text without diagnostics, a comment directly in an array (not in an array inside of it) that is not above something is one of the comments of an entry exactly if it is behind the start of the entry, in front of the next entry, and either behind something on its line or in front of the comma of the entry; so it is a comment of at most one entry.","all texts without diagnostics, all arrays at any depth, all their comments","unbounded inputs and nesting; the ranges are extended while the list of comments grows",[T+"parse.rs: parse_value, mark_comments_above, add_comment, CommentRange::extend_to"])

p('C99','Every part of a document is in the map or is reported',
 'After a text was parsed and mapped, every named header and every assignment of its tree, also the assignments inside of inline tables and of inline tables in arrays, is a representation of an entry of the map, with the last name of its key, or it is rejected, or it is inside of a rejected one. There is exactly one diagnostic of the map for each rejected part, in the order of the text, and it marks a name of the key of that part. So if the map reports nothing, nothing of the tree is missing in the map.',
 'all texts (also those with mistakes), all trees with a name in each key, any nesting of inline tables and arrays',
 'A test looks for a few keys of a few documents; that nothing is lost silently, for any mixture of headers, dotted keys, duplicates and inline tables, is a statement about all documents.',
 [T+'map.rs: map, insert_top_level_assignments, map_value, insert_node_at_path, insert_node, insert_array_entry_at_path, get_table_to_extend', T+'error.rs: Error'])
p('C100','Messages show what they are about',
 'The text of every diagnostic shows what the diagnostic stores: the characters or the token that was found, the characters or the delimiter that was expected, the kind of string or number, the part of a date-time or the number of a version, a number that is out of range with its bounds, a code point as a hexadecimal number of the right value, the path of the key and the keys in question, the expected type and the one that is there; and its hint names the bracket, the key, the table or the array that it marks. The prefix 0x is proposed exactly for hexadecimal letters in numbers.',
 'all diagnostics of the TOML, semver and ide crates, with any characters, names, numbers and types in them',
 'A test compares the texts of a few diagnostics; that each of the about ninety kinds shows all its parameters, whatever they are, is a statement about all values.',
 [T+'error.rs: Error::description, Error::hint, Hint::annotation', T+'lex.rs: Quote', S+'error.rs: Error::description', I+'cargo.rs: Error::description, Warning::description'])
p('C101','What a dependency keeps can be found in the document',
 'For each dependency of the result of the check of a manifest, each string and each boolean that it keeps (package, version, registry, path, git, branch, tag, rev, optional, workspace, default-features) can be asked for its key and its place without a panic: the key is the last name in front of the equal sign, with the text of the key it was read from (for a dependency that is only a version: the name of the dependency), it stands in the text, and the place is the piece of the text from this name to the value, or to the comma behind the value. Each feature is a string of the text, an element of the array of the key features.',
 'all input texts, all orders of the tables, all dependencies and all of their parts',
 'A test looks at the parts of a few dependencies; keys may be written as dotted keys, headers, inline tables and quoted names, in any combination and at any place.',
 [I+'check.rs: Dependency, DependencySpec, StringAssignment::ident, StringAssignment::span, BoolAssignment::ident, BoolAssignment::span', T+'map.rs: MapTableEntryRepr::repr_span'])
p('C102','The forms of the members of a feature',
 'A member of a feature of the index is dep:<package> exactly if as_dep gives the package and is_dep is true, has a slash exactly if is_dep_feature is true, and has a question mark in front of a slash exactly if is_weak_dep_feature is true. So for the four documented forms, with names that have none of the characters slash, colon and question mark, the predicates tell the form; no text has two forms; and sorting puts plain features in front of features of dependencies, and these in front of dependencies.',
 'all texts; all members of the documented forms with any names',
 'unbounded texts, and pairs of texts for the order',
 [I+'index.rs: FeatureMember'])
p('C103','Requirements relate to each other as they read',
 'For every version text V and every version: what =V matches is matched by ~V and by ^V, and what these match is matched by >=V; from major version 1 on ~V is narrower than ^V, for major version 0 it is wider. >=V is >V or =V, <=V is <V or =V; no version satisfies both <V and >=V or both >V and <=V, and every release satisfies one of the two. With a release, all later releases satisfy >=V and >V, and all earlier ones <=V and <V. Order, repetition and spaces of the comparators of a requirement do not matter, and adding comparators never lets in another release.',
 'all version texts (full, partial, with wildcards behind numbers, with tags), all versions including prereleases, all lists of comparators',
 'unbounded numbers and tags, and pairs of requirements',
 [S+'eval.rs: matches_requirement, matches_exact, matches_greater, matches_less, matches_tilde, matches_caret', S+'parse.rs: parse_requirement', S+'lib.rs: VersionReq::matches'])
p('C104','How far a defective date reaches',
 'A literal that looks like a date without a time but is no valid date gives one diagnostic and one defective value. If a literal follows on the line within five columns, it belongs to that value, which then goes from the start of the date at least to the end of that literal, and the parser goes on behind it without another diagnostic; if no literal follows within five columns, the value is the date alone and the parser goes on with the token behind it.',
 'all parser states, all defective dates, all tokens that follow',
 'unbounded documents and token sequences',
 [T+'parse.rs: parse_value, try_combine_time_part, combine_adjacent_dot_and_lit', T+'parse/lit.rs: parse_literal'])
p('C105','What the tokenizer keeps is no larger than the text',
 'A text of n characters gives at most n tokens, and the pieces of source text that the tokens keep (words, comments, strings with their delimiters) are together no larger than the text. In a text without lexical diagnostics the decoded contents of all strings are together no larger than the text: no escape sequence makes a string longer, and each string has at least two bytes more in the text than in its contents.',
 'all input texts',
 'unbounded inputs; a bound on the memory of every run',
 [T+'lex.rs: lex, Tokens, StringToken'])
p('C106','Comparing versions and matching requirements agree',
 'For any two versions U and V where V is a release, or U and V are prereleases of the same major.minor.patch: V matches the requirement written >U, >=U, <U, <=U or =U exactly if comparing V with U (without build metadata) gives greater, not less, less, not greater, or equal. Any other prerelease V matches none of these requirements.',
 'all pairs of versions with any numbers, tags and build metadata',
 'pairs of unbounded versions across two independent implementations of the order',
 [S+'lib.rs: Ord for Version, Ord for Prerelease, VersionReq::matches', S+'eval.rs: matches_exact, matches_greater, matches_less', S+'parse.rs: parse_requirement'])
p('C107','Compatibility of versions is a preorder',
 'Every version U (prerelease or not, with any build metadata) matches =U, ~U, ^U, >=U and <=U and neither >U nor <U. For releases: if V matches ^U and W matches ^V then W matches ^U, and the same holds for the tilde; if V matches ^U and U matches ^V, they have the same numbers; V matches ^U exactly if it is not below U and has the same numbers up to the first number of U that is not zero.',
 'all versions, all pairs and triples of releases',
 'triples of unbounded versions',
 [S+'eval.rs: matches_caret, matches_tilde, matches_exact', S+'parse.rs: parse_requirement', S+'lib.rs: VersionReq::matches'])
open('/verif/properties.jsonl','w').write(''.join(json.dumps(x)+'\n' for x in P))
