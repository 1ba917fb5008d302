{
 "C01": "The comparison of tags is the loop of `Prerelease::cmp`; it is proved equal to a lexicographic comparison of parsed identifiers, whose order axioms are proved by induction.",
 "C02": "`Spec/Semver.lean` defines SemVer section 11 as an inductive relation on texts; the loop is proved equivalent to it.",
 "C03": "As C01, with the extra leading-zero rule of build metadata.",
 "C04": "Lexicographic combination of five total orders.",
 "C05": "Every output of the requirement parser satisfies a well-formedness invariant (`ReqOk`), under which the `unreachable!` of `eval.rs` is unreachable.",
 "C06": "Case analysis of the decision functions against the intervals of `Spec/Matching.lean`, `omega`.",
 "C07": "As C06.",
 "C08": "As C06.",
 "C09": "As C06.",
 "C10": "As C06.",
 "C11": "Unfolding of `matches` to a conjunction plus the opt-in rule, stated with the SemVer order.",
 "C12": "No function of the evaluation reads the build tag; stated for two versions that differ there.",
 "C13": "The two operators agree on every comparator and version.",
 "C14": "Each comparator admits a convex set in the version order; intersections of convex sets are convex.",
 "C15": "Display gives a text of the grammar, and the parser refinement (C19) reads it back; induction on the decimal text.",
 "C16": "Refinement of the cursor parser to the grammar, plus uniqueness of the text of a value. In every build: `Spec/Wrap.lean` describes the numbers that are accepted modulo 2^32, and the same refinement is proved for it.",
 "C17": "Invariant of the requirement parser: the offsets that it stores describe the white space that display prints again. In every build: `Spec/Wrap.lean` describes the numbers that are accepted modulo 2^32, and the same refinement is proved for it.",
 "C18": "As C17 for the alternate form. In every build: `Spec/Wrap.lean` describes the numbers that are accepted modulo 2^32, and the same refinement is proved for it.",
 "C19": "Refinement: the parser accepts exactly the texts derived by `Spec/SemverText.lean` and `Spec/ReqText.lean`. In every build: `Spec/Wrap.lean` describes the numbers that are accepted modulo 2^32, and the same refinement is proved for it.",
 "C20": "Loop invariant of `parse_int` with machine arithmetic in both overflow modes. In every build: `Spec/Wrap.lean` describes the numbers that are accepted modulo 2^32, and the same refinement is proved for it.",
 "C21": "Counter invariant of the comparator loop.",
 "C22": "Span invariant of each parser function: an error span is `[pre, pre+mid)` for a split of the input at characters.",
 "C23": "Invariant of the comparator loop.",
 "C24": "The explicit panic outcome is unreachable, by the same invariants. In every build: `Spec/Wrap.lean` describes the numbers that are accepted modulo 2^32, and the same refinement is proved for it.",
 "C25": "As C17; shifting the start offset shifts all stored offsets. In every build: `Spec/Wrap.lean` describes the numbers that are accepted modulo 2^32, and the same refinement is proved for it.",
 "C26": "Invariant of the tag parser.",
 "C27": "Bit-level model on `BitVec 64`/byte lists; decode after encode.",
 "C28": "By C27 and injectivity.",
 "C29": "A state machine of all operations on a heap; ownership invariant by induction over the history.",
 "C30": "The lexer is a structurally recursive function; the outcome is never `panic`.",
 "C31": "Induction over the tokens with a cursor invariant.",
 "C32": "The tokens and the skipped blanks partition the text; induction over the lexer.",
 "C33": "Refinement to the token grammar of `Spec/Lex.lean`.",
 "C34": "Cursor invariant: position = number of line feeds and bytes behind the last one.",
 "C35": "Digit-loop invariant with checked arithmetic against `decVal`.",
 "C36": "As C35 with the unchecked arithmetic that the code has.",
 "C37": "Refinement to a grammar of digit groups.",
 "C38": "Refinement of the cleaned text to the TOML float grammar.",
 "C39": "Case analysis of the field parsers.",
 "C40": "Print-then-parse by induction on the fields.",
 "C41": "Grammar of the accepted texts.",
 "C42": "As C41.",
 "C43": "Finite case analysis lifted to all texts.",
 "C44": "Panic outcome unreachable for each literal parser.",
 "C45": "Refinement of map construction to `docDefs`/`Says` of `Spec/Map.lean`, by induction over the document.",
 "C46": "Same induction; the error count is positive exactly if two definitions are incompatible.",
 "C47": "Invariant of the map under every insertion (`Spec/MapRepr.lean`), also for documents with mistakes.",
 "C48": "Corollary of the refinement for a list of headers.",
 "C49": "`CheckM` is a writer/panic monad; its runs are proved equal to `Spec/Check.lean` up to the order of the table entries.",
 "C50": "The specification reads tables by key only, so two orders have permutation-equal results. The entries whose versions are read are the same too.",
 "C51": "Case analysis over the key sets of the check.",
 "C52": "List length lemmas over all nestings.",
 "C53": "`sort_by` as a stable merge; the result of a stable sort is unique.",
 "C54": "Induction over the text against `LinesOf`.",
 "C55": "Order axioms from rank and text order.",
 "C56": "Refinement over the lines; JSON decoding is a parameter.",
 "C57": "Case analysis on the length of the name.",
 "C58": "Fuel-indexed model; a progress measure proves a sufficient fuel for every text.",
 "C59": "Depth counter invariant.",
 "C60": "Panic outcome unreachable under the stated condition; a witness where it is reachable.",
 "C61": "Offset invariant of each literal parser.",
 "C62": "Case analysis lifted to all texts.",
 "C63": "Each lexical error is attached to a split of the text.",
 "C64": "Span arithmetic of `apply_to` over the text of a string token.",
 "C65": "Model of the CLI display with slices as panics; bounds of each slice. Exactly: the slices succeed only at boundaries (Diag/Exact.lean), and a boundary of a line is a place of the text.",
 "C66": "Combination of C54, C63 and C65.",
 "C67": "Induction over the text.",
 "C68": "Post-conditions of each parser function (Hoare style, `Post`), induction on fuel.",
 "C69": "As C68 for the diagnostics; errors in literals by a logic on cursors (`LitBound.lean`).",
 "C70": "As C68; each comment token is kept exactly once unless the parser recovers from an error.",
 "C71": "Soundness and completeness of the parser against `Spec/Grammar.lean`.",
 "C72": "The items of the tree equal the items of the derivation, and derivations are unique.",
 "C73": "Invariant over map construction: each diagnostic relates a key of the document and an entry of the final map.",
 "C74": "Panic outcome of `CheckM` unreachable on the map of any text unless a version requirement that is read panics (`check_spec`); conversely a panicking step makes the loops around it panic (`check_fails`); which requirements panic is C24.",
 "C75": "Invariant over map construction carried over from C68.",
 "C76": "The invariant of C68 extended: the places of everything collected so far are an ordered list of pieces of the consumed text.",
 "C77": "Induction over locations; the entries of a table of the map have distinct keys (C47).",
 "C78": "All spans and context lines of all diagnostics are in the text (C69, C73, C76), so the display cannot panic (C65); the order by C53. The exact conditions by C65_panics_iff.",
 "C79": "As C78 for each constructor of the specification of the messages (`Message`, C49); spans of version errors by C22 and the place of the string.",
 "C80": "The phases are those of C79; a place of the text of a buffer is a place in one of its lines, by induction over the lines.",
 "C81": "All texts of all diagnostics are put together from constants, escaped names and digits; the expected words named in errors are keywords (C69), the keys named by the check are constants (C49); then induction over the lines that are displayed.",
 "C82": "The derived `Deserialize` code is a function on JSON trees; the specification says by field name (or by place, for the array form) what a tree says; an iff by cases on the loop over the entries of an object.",
 "C83": "Case analysis over the responses; the outcome is specified by a relation between responses and results; UTF-8 decoding by the lemmas of Lean's core library.",
 "C84": "From the lossless display (C15, C17) and the soundness and completeness of the parser of requirements.",
 "C85": "Induction over the history of calls, with a specification of the value last written to each place.",
 "C86": "Induction over the parts of the text: the tokenizer is back at the start of a line with nothing pending behind each part, and the parser loop is at the same token; for a damaged line, every token and every diagnostic stays on that line.",
 "C87": "The requirement that is read from a text with wrapped numbers is the one of the text with the numbers modulo 2^32 and spaces in the place of the lost digits; display prints that text and it is in the grammar.",
 "C88": "`Right` in Spec/LitTruth.lean states per kind what the message claims of the text and the place. Every loop of the literal parser carries the shape of the prefix already read as an invariant (Toml/LitTruth*.lean).",
 "C89": "Spec/SemverTruth.lean says, for each kind of error, of which texts (in front of, under and behind the span) it is true. The soundness lemmas for what was read (C19) give the text in front; each parser step that fails is inspected (Semver/Truth.lean).",
 "C90": "Spec/LexTruth.lean says, for each kind of diagnostic, of which texts (in front of, under and behind the mark) it is true. The invariant of the string loop carries the opening delimiter, the body read so far and that it is not closed (`Open`); every place that reports shows the truth of its report (LexQuote, LexEsc, LexEsc2, LexIter, LexLoop, LexMain).",
 "C91": "Spec/ParseTruth.lean says for each kind of diagnostic what it claims about the tokens and their places (`Claims`). The invariant `Good` of the parser relates the state to the tokens in front and behind; every place that reports shows its claim, and the postconditions of the nested parsers carry what their callers report about (the last token, the opened brackets, the depth): ParseTold, ParseLogic, ParseKey, ParseVal, ParseArr, ParseHead, ParseRoot, ParseTop.",
 "C92": "Values with faults are an inductive definition next to the grammar (Spec/Soft.lean), with a pattern of what must be in the tree and the extents of the faults. Induction over the depth and, in arrays and tables, over the number of tokens; for the tokens of a damaged entry an invariant of the loop says that the parser cannot pass the comma or bracket that ends it, and that diagnostics begin inside.",
 "C93": "A document is a list of lines (Spec/Assoc.lean), and a function of the lines says what a comment belongs to, independently of the parser. An inductive relation (Reach) describes what the loop gathers line by line; the parser refines it (AssocRoot, by induction on the lines, using the completeness proof of the grammar), and an invariant of the relation (AssocInv) gives the claims. A separate frame argument (AssocVal) shows that reading a value leaves the comments in front of it alone.",
 "C94": "Every function of the parser moves tokens from the rest to the storage of comments or drops them, and keeps both together sorted by their places (AssocArr: Adv, Srt). For each value read, every closed array in it has the range of the stored comments between its brackets, and everything that is still to be read is behind its closing bracket (ArrGood, by induction on the depth and on the loops). AssocArrRoot carries this through the loop over the items, with the comments that are still pending and those that are items of their own. C94_text adds that no comment is lost (C70) and that sorted permutations are equal.",
 "C95": "Memory is a list of regions that are live or freed; every access checks that, and a failed check is a fault. The specification (Spec/Container.lean) has no memory: a container is a text. Refinement by induction on the history, with the invariant that each container refers only to its own live arena, that no two containers share one, and that the live arenas are counted by the containers and the panics.",
 "C96": "Invariants of the run of the parser over the tokens: `KR` (Toml/AssocKind*.lean) says that the stored comments at the end of a line are exactly those with a token that is no line break directly in front; Toml/AssocKindText.lean shows that this is the same as `FirstOnLine` in the text; `AboveOk` (Toml/AssocAbove*.lean) says that the comments that are marked as above are above a line of the tree so far. `EntOk` (Toml/AssocEnt*.lean) says that the last comment in front of the end of an entry is marked if it is on the line above it. Only for runs without diagnostics.",
 "C97": "`AstLv` (Toml/AssocLevel*.lean) says for a value that its arrays have the level of the nesting, that every stored comment since the start of the value is in one of its arrays, and that those directly in an array have the level of the array or of its entries; it is an invariant of each loop of the parser, in all runs.",
 "C98": "`Owned` (Toml/AssocOwn*.lean) says of a finished array that the comments of its entries lie behind their starts, that everything between the start and the comma of an entry and every comment at the end of a line behind an entry is in a range, and that the entries are ordered; it is kept by consuming tokens and storing further comments (`Adv`, `Stay`). Only for runs without diagnostics.",
 "C99": "Model: the whole of Toml/Map.lean. Specification: Spec/MapAll.lean lists the parts of a tree by recursion over the tree alone, says when a part is in a map, and pairs the diagnostics with the rejected parts. Proof (Toml/MapAll.lean): an accounting predicate is carried through each function of the map (walk, insert, values, arrays, documents); what was stored earlier stays stored by the growth lemmas of C46.",
 "C100": "Model: Toml/ErrorText.lean, Semver/ErrorText.lean, Ide/ErrorText.lean. Specification: Spec/Wording.lean lists, per kind of diagnostic, the texts that have to stand in the message (between backticks, or as a word). Proof: by cases; the place of each text in the message is given by the literal pieces around it, which the kernel evaluates.",
 "C101": "Model: Ide/Access.lean (the accessors), Ide/Check.lean. Specification: Spec/CheckParts.lean (what a dependency keeps, and where it has to stand). Proof: the dependencies are those of C49; the entry of each key has one representation, an assignment (C47), whose places are in order in the text (C76) and whose names and values stand in the text (C75).",
 "C102": "Model: Diag/Member.lean, Diag/Index.lean. Specification: Spec/Member.lean (the four documented forms and their texts). Proof: the predicates are characterised for all texts by induction, the forms follow.",
 "C103": "Model: Semver/Parse.lean, Semver/Eval.lean. Specification: the words of C05-C14 (requirement texts, matching) and logical connectives. Proof: from the exact characterisation of matching (C11), by totality and asymmetry of the order of triples and of tags.",
 "C104": "Model: Toml/Parse.lean (literalValue, tryCombineTimePart, combineLoop). Specification: in the statements. Proof: by running the function on an arbitrary state, and induction over the tokens that are stuck to the literal.",
 "C105": "Model: Toml/Lex.lean. Specification: Spec/Lex.lean (the tokens of a text) and sums over the tokens. Proof: induction over the layout of the tokens (C32) and over the token grammar (C33).",
 "C106": "Model: Semver/Order.lean, Semver/Parse.lean, Semver/Eval.lean. Specification: in the statements, with the text of a version (Spec/SemverText.lean). Proof: both sides are reduced to SemVer precedence (C04 and C11).",
 "C107": "Model: Semver/Parse.lean, Semver/Eval.lean. Specification: in the statements. Proof: from C103 and C106, and arithmetic on the bounds of the caret and the tilde."
}