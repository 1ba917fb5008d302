# Formal model of Saecki/crates-nvim-rs in Lean 4

Layout: `lean/Verif/<area>/*.lean` are the model (files named after the Rust source) and the proofs;
`lean/Verif/Spec/*.lean` are the specifications, which do not refer to the functions of the model (they use
its data types where a statement is about them); `lean/Verif/Props/*.lean` are the property theorems only,
each with a concrete case that meets its hypotheses.  `properties.jsonl` is written by `tools/props.py`,
`MANIFEST.json` by `tools/manifest.py`, this file by `tools/design.py`; `tools/mutate.py` runs the wrong
programs of `seeded/LOG.jsonl`.

## Trusted base

* Lean's kernel, and the axioms `propext`, `Classical.choice`, `Quot.sound`; no theorem of MANIFEST.json uses
  another one (no added axioms, no compiled evaluation; concrete cases are evaluated by the kernel).
* The reading of the Rust code: every definition of the model cites file and lines.  The Rust code was not run.
  The reading was tested against what the project itself recorded of its behaviour (these are tests, no proofs):
  `tools/conform/fixtures.py` runs the model on the documents behind the 353 snapshots of
  `crates/toml/tests/fixtures/invalid` (rebuilt from the lines they show) and gets all 353 outputs byte for byte;
  `tools/conform/unit.py` reads the unit tests of the TOML, semver and ide crates with a small interpreter for the
  part of Rust they use, and the model gives the expected value in all of their cases.
* The conventions:
  * A `&str` is a list of characters, a byte offset is a sum of `Char.utf8Size`; slicing off a character
    boundary or out of range is the explicit outcome `panic`.
  * `&mut` state is passed and returned.  Loops are structural recursion or recursion on fuel; where there is
    fuel, a theorem gives a sufficient amount for every input (C58), so `timeout` is not an outcome.
  * `unreachable!`, `expect`, `todo!`, failing slices, integer overflow with overflow checks are `panic`,
    distinct from an error of the program.
  * Offsets, lines, columns and lengths are unbounded natural numbers: the statements are about texts of less
    than 4 GiB.  Machine arithmetic is modelled exactly where a property is about it: the numbers of versions
    (`u32`, both overflow modes), TOML integers (`i64`, both modes), `NonZeroU32` of headers, the `u8`
    truncation of `end_char`, the words of `InlineStr`.
* Assumed of the environment, as parameters or definitions of the model:
  * `f64::from_str` (std) is a parameter; only the text that is given to it is stated.
  * `slice::sort_by` is a stable sort (the result of one is proved unique, C53).
  * `HashMap` iterates over its entries in some order: the model keeps a list of entries, and C50 quantifies
    over all orders; `HashMap::insert`/`get` are lookup by key.
  * The reader of `serde_json` is a parameter that gives a JSON tree or an error (C56, C82, C83); the code derived by
    `serde` is modelled on trees, as if the whole line was read first (which is not observable, since an error is an
    error in both). The server and the syntax check of URIs are parameters (C83). `unicode_width` is a parameter
    (C65).
  * The allocator returns aligned addresses that are not in use (C29); 64 bits, little endian.
  * `char::is_whitespace`/`is_control` and the ASCII predicates are defined from the documentation of std.

## What is modelled

| Rust source | Lean model | Not modelled |
|---|---|---|
| `crates/semver/src/lib.rs` | `Semver/Types`, `Semver/Order` | `Hash`, `Debug` |
| `crates/semver/src/eval.rs` | `Semver/Eval` | |
| `crates/semver/src/parse.rs` | `Semver/Parse` | |
| `crates/semver/src/display.rs` | `Semver/Display` | `{:width$}` limits of newer toolchains |
| `crates/semver/src/inlinestr.rs` | `Semver/InlineStr` | pointer provenance, big endian, 32 bits |
| `crates/semver/src/error.rs` | kinds and spans in `Semver/Parse`, texts in `Semver/ErrorText` | |
| `crates/toml/src/lex.rs` | `Toml/Lex`, `Toml/Types` | |
| `crates/toml/src/parse.rs` | `Toml/Ast`, `Toml/Parse` | `Debug` |
| `crates/toml/src/parse/{lit,num,datetime}.rs`, `datetime.rs` | `Toml/Lit`, `Toml/Num`, `Toml/DateTime` | `f64::from_str` |
| `crates/toml/src/map.rs` | `Toml/Map` | |
| `crates/toml/src/error.rs` | kinds and spans in `Toml/Types`, texts, hints and context lines in `Toml/ErrorText` | |
| `crates/toml/src/util.rs` | `Toml/Simple` | `Debug` of the values |
| `crates/toml/src/container.rs` | `Toml/Container` | lifetimes, as far as the type checker enforces them; what is in the arena besides texts |
| `crates/common/src/lib.rs`, `diagnostic.rs` | `Common/*`, `Diag/Model` | terminal colours are fixed texts |
| `crates/ide/src/check.rs`, `cargo.rs`, `error.rs` | `Ide/Check`, accessors in `Ide/Access`, texts in `Ide/ErrorText` | |
| `crates/ide/src/index.rs`, `index/fetch.rs` | `Diag/Index`, predicates of `FeatureMember` in `Diag/Member`, derived `Deserialize` in `Diag/Json`, requests in `Diag/Fetch` | the HTTP client, the JSON reader, time |
| `crates/semver/src/serde.rs` | `Diag/Json` | |
| `crates/toml/src/onevec.rs` | `Toml/OneVec` | iterators |
| `crates/cli/src/main.rs` | `Cli/Model`, and the display of a diagnostic in `Diag/Model` | the file system; timings that are printed |
| `crates/nvim/src/lib.rs`, `lua/crates_nvim.lua` | `Nvim/Model` | the Neovim API; lines that are not UTF-8 |

Fidelity notes on single definitions are in their comments ("Simplification: …").

## Defects of the code that the proofs met

Each makes a natural statement false; where there is a property about it, the claim is partial and the witness is
a theorem.

* D1 `semver` `parse_int`: `checked_mul(10)` and then unchecked `val + digit`: numbers that start with
  4294967296 to 4294967299 panic (overflow checks) or wrap (release). `C16/C17/C20/C24_counterexample`; in the
  check of a manifest `C74_counterexample`.
* D2 TOML integers with a prefix wrap: `0xffffffffffffffff` is -1. `C36_counterexample`.
* D3 Anything is accepted behind the offset of a date-time (`…Zjunk`). `C41_counterexample`.
* D4 Underscores in the year and in the hour of a local time are accepted. `C42_counterexample`.
* D5 `+Inf`, `-Inf`, `+Nan`, `-Nan` are accepted. `C43_counterexample`.
* D6 The parser panics on a header that is split by a multi-line string: `   ["""\n"""]` in every build, `    ["""\n"""]` with overflow checks (without, the bracket is then placed on the wrong line). `C60_counterexample`, `C60_checked_counterexample`.
* D7 `TextOffset::apply_to`: wrong column for a string that starts with a line break; `u8` truncation at 253 or
  more excessive quotes. `C64_counterexample`.
* D8 The span of `InvalidCommentChar` is the one of the previous character. `C63_counterexample`.
  `ExcessiveQuotes` starts one quote early.
* D9 `string()`: an unterminated single-line string with an escape loses its last character; a lone carriage return
  is accepted behind a line-ending backslash.
* D10 `try_build`: git together with path is reported as git together with registry.
* D11 `semver` `error.rs`: the names of two fields are swapped; `toml` `error.rs`: the hint about a table that a dotted key cannot extend calls it an array; `CurlyRight` prints "`{`".
* D12 Index files: a `rust_version` of two components is refused (and with it the whole file); the URL function
  panics on an empty name and may on a non-ASCII one; no lower-casing. `C57_panics`.
* D13 `nvim`: all severities are errors. `C80_severity_counterexample`.
* D14 (quirk) `>=1` does not admit 1.2.0-alpha but admits 2.0.0-alpha; captured in `AdmitsPre`.
* D15 `mark_comments_above`: if all stored comments are contiguous above the item, none is found.
* D16 The display of the CLI panics on an unterminated string in a file with CRLF line breaks. `C66_counterexample`.
* D17 (quirk) The column in the header of a displayed diagnostic counts from 0, the line from 1.
* D18 The recovery from errors in arrays drops a comment.
* D19 A TAB between date and time is accepted.
* D20 `parse_key` on an unterminated string drops the identifiers in front of it.
* D21 `[[x.a.b]]`, `[x]`, `a.c = 1` is accepted. `C46_liberal`.
* D22 `Container::parse_with<'b>`: the lifetime is chosen by the caller, so safe code can cause a use after free. `C95_counterexample`.
* D23 `parse_dependency_features` on `[[…features]]` counts representations instead of entries.
* D25 The shown path of a key is not injective (backslashes are not escaped).
* D26 `CannotExtendTableWithDottedKey` has the hint "original array defined here"; `InvalidIntChar` says "zero in".
* D27 The place of an error in a version requirement is computed from the decoded text of the string: it is wrong behind an escape sequence, and for a multi-line string it can be behind the end of the line, where the display of the CLI panics. `C79_counterexample`.
* D28 The CLI exits with success even if there are errors; the time that it prints may panic if the clock goes back (`SystemTime::duration_since(..).unwrap()`; not modelled).
* D29 `Vec::with_capacity(capacity.max(MAX_COMPARATORS))` in `semver/src/parse.rs` was probably meant to be `min` (not observable).
* D30 The name and the features of a line of an index file are borrowed (`&str`): an escape sequence in one of them (valid JSON) makes the whole file refused. The array form of a line is accepted (quirk of `serde`). `C82_line`.
