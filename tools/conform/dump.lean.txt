import Verif.Cli.Model
import Verif.Toml.Simple
import Verif.Semver.Eval
import Verif.Semver.Display
import Verif.Diag.Json
import Lean.Data.Json
open Lean (Json)
open Verif

def jt (s : Str) : Json := .str (String.ofList s)
def jn (n : Nat) : Json := .num n
def ji (n : Int) : Json := .num ⟨n, 0⟩
def jl (xs : List Json) : Json := .arr (xs.insertIdx 0 (.str "list")).toArray
def con (n : String) (xs : List Json) : Json := .arr ((Json.str n) :: xs).toArray
def obj (n : String) (xs : List (String × Json)) : Json := Json.mkObj (("_", .str n) :: xs)
def jo {α : Type} (f : α → Json) : Option α → Json
  | some a => f a
  | none => .null
def jp (p : Pos) : Json := obj "Pos" [("line", jn p.line), ("char", jn p.char)]
def js (s : Span) : Json := obj "Span" [("start", jp s.start), ("end", jp s.stop)]
def jc (c : Char) : Json := .str c.toString
/-- the name of an enum value: its `Repr` without the namespace, with a capital -/
def en {α : Type} [Repr α] (a : α) : Json :=
  let s := ((toString (repr a)).splitOn ".").getLast!
  con (s.capitalize) []

namespace T
open Verif.Toml Verif.TomlMap
def tokTy : TokenType → Json
  | .string i => con "String" [jn i]
  | .literalOrIdent i => con "LiteralOrIdent" [jn i]
  | .comment i => con "Comment" [jn i]
  | .eof => con "EOF" []
  | t => en t
def tok (t : Token) : Json := obj "Token" [("ty", tokTy t.ty), ("start", jp t.start)]
def off (o : TextOffset) : Json := obj "TextOffset" [("start_line", jn o.startLine),
  ("start_char", jn o.startChar), ("end_line", jn o.endLine), ("end_char", jn o.endChar)]
def strTok (s : StringToken) : Json := obj "StringToken" [("quote", en s.quote), ("lit", jt s.lit),
  ("lit_end", jp s.litEnd), ("text", jt s.text), ("text_offset", off s.textOffset)]
def tokens (t : Tokens) : Json := obj "Tokens" [("tokens", jl (t.tokens.map tok)),
  ("strings", jl (t.strings.map strTok)), ("literals", jl (t.literals.map jt)), ("eof", tok t.eof)]
def part : LitPart → Json
  | .prefixedInt p => con "PrefixedInt" [en p]
  | p => en p
def err : Error → Json
  | .missingQuote q s => con "MissingQuote" [en q, js s]
  | .unfinishedEscapeSequence s => con "UnfinishedEscapeSequence" [js s]
  | .prefixedIntSignNotAllowed p => con "PrefixedIntSignNotAllowed" [jp p]
  | .uppercaseIntRadix r p => con "UppercaseIntRadix" [en r, jp p]
  | .litEndsWithUnderscore l p => con "LitEndsWithUnderscore" [part l, jp p]
  | .expectedRadixOrDateTime c p => con "ExpectedRadixOrDateTime" [jc c, jp p]
  | .intDigitTooBig r c p => con "IntDigitTooBig" [en r, jc c, jp p]
  | .prefixedIntValueStartsWithUnderscore p => con "PrefixedIntValueStartsWithUnderscore" [jp p]
  | .prefixedIntValueEndsWithUnderscore p => con "PrefixedIntValueEndsWithUnderscore" [jp p]
  | .invalidCharInIdentifier c p => con "InvalidCharInIdentifier" [jc c, jp p]
  | .spaceBetweenArrayPars s => con "SpaceBetweenArrayPars" [js s]
  | .multilineLiteralStringIdent s => con "MultilineLiteralStringIdent" [js s]
  | .multilineBasicStringIdent s => con "MultilineBasicStringIdent" [js s]
  | .missingComma p => con "MissingComma" [jp p]
  | .expectedValueFound t s => con "ExpectedValueFound" [jt t, js s]
  | .expectedKeyFound t s => con "ExpectedKeyFound" [jt t, js s]
  | .expectedRightSquareFound t p s => con "ExpectedRightSquareFound" [jt t, jp p, js s]
  | .missingNewline p => con "MissingNewline" [jp p]
  | .recursionLimitExceeded p => con "RecursionLimitExceeded" [jp p]
  | .dateTimeOutOfBounds f n lo hi s => con "DateTimeOutOfBounds" [en f, jn n, jl [jn lo, jn hi], js s]
  | .duplicateKey ls p o d => obj "DuplicateKey" [("lines", jl (ls.map jn)), ("path", jt p), ("orig", js o),
      ("duplicate", js d)]
  | .cannotExtendArrayWithDottedKey ls p o d => obj "CannotExtendArrayWithDottedKey"
      [("lines", jl (ls.map jn)), ("path", jt p), ("orig", js o), ("new", js d)]
  | .cannotExtendTableWithDottedKey ls p o d => obj "CannotExtendTableWithDottedKey"
      [("lines", jl (ls.map jn)), ("path", jt p), ("orig", js o), ("new", js d)]
  | e => .str (toString (repr e))
def range (r : CommentRange) : Json := obj "CommentRange" [("start", jn r.start), ("len", jn r.len), ("level", jn r.level)]
def ident (i : Ident) : Json := obj "Ident" [("lit", jt i.lit), ("lit_start", jp i.litStart), ("text", jt i.text),
  ("text_start_offset", jn i.textStartOffset), ("text_end_offset", jn i.textEndOffset), ("kind", en i.kind)]
def dotted (d : DottedIdent) : Json := obj "DottedIdent" [("ident", ident d.ident), ("dot", jo jp d.dot)]
def key : Key → Json
  | .one i => con "One" [ident i]
  | .dotted is => con "Dotted" [jl (is.map dotted)]
def fl : FloatVal → Json
  | .parsed t => obj "f" [("t", jt t)]
  | .inf n => obj "f" [("t", .str (if n then "-inf" else "inf"))]
  | .nan _ => obj "f" [("t", .str "nan")]
def date (d : Date) : Json := con "Date" [jn d.year, jn d.month, jn d.day]
def time (t : Time) : Json := con "Time" [jn t.hour, jn t.minute, jn t.second, jn t.nanos]
def offset : Offset → Json
  | .utc => con "Utc" []
  | .custom m => con "Custom" [ji m]
def datetime : DateTime → Json
  | .offsetDateTime d t o => con "OffsetDateTime" [date d, time t, offset o]
  | .localDateTime d t => con "LocalDateTime" [date d, time t]
  | .localDate d => con "LocalDate" [date d]
  | .localTime t => con "LocalTime" [time t]
def strVal (s : StringVal) : Json := obj "StringVal" [("lit", jt s.lit), ("lit_span", js s.litSpan),
  ("text", jt s.text), ("text_offset", off s.textOffset), ("quote", en s.quote)]
def intVal (l : Str) (s : Span) (v : Int) : Json := obj "IntVal" [("lit", jt l), ("lit_span", js s), ("val", ji v)]
def floatVal (l : Str) (s : Span) (v : FloatVal) : Json :=
  obj "FloatVal" [("lit", jt l), ("lit_span", js s), ("val", fl v)]
def boolVal (s : Span) (v : Bool) : Json := obj "BoolVal" [("lit_span", js s), ("val", .bool v)]
def dtVal (l : Str) (s : Span) (v : DateTime) : Json :=
  obj "DateTimeVal" [("lit", jt l), ("lit_span", js s), ("val", datetime v)]
def endJ : End → Json
  | .par p => con "Par" [jp p]
  | .none p => con "None" [jp p]
partial def value : Value → Json
  | .string s => con "String" [strVal s]
  | .int l s v => con "Int" [intVal l s v]
  | .float l s v => con "Float" [floatVal l s v]
  | .bool s v => con "Bool" [boolVal s v]
  | .dateTime l s v => con "DateTime" [dtVal l s v]
  | .invalid l s => con "Invalid" [jt l, js s]
  | .inlineTable t => con "InlineTable" [obj "InlineTable" [("l_par", jp t.lPar), ("assignments",
      jl (t.assignments.map fun a => obj "InlineTableAssignment" [("assignment", obj "Assignment"
        [("key", key a.assignment.key), ("eq", jp a.assignment.eq), ("val", value a.assignment.val)]),
        ("comma", jo jp a.comma)])), ("end", endJ t.stop)]]
  | .inlineArray a => con "InlineArray" [obj "InlineArray" [("comments", range a.comments), ("l_par", jp a.lPar),
      ("values", jl (a.values.map fun v => obj "InlineArrayValue" [("comments", range v.comments),
        ("val", value v.val), ("comma", jo jp v.comma)])), ("end", endJ a.stop)]]
def assignment (a : Assignment) : Json :=
  obj "Assignment" [("key", key a.key), ("eq", jp a.eq), ("val", value a.val)]
def arrVal (v : InlineArrayValue) : Json := obj "InlineArrayValue" [("comments", range v.comments),
  ("val", value v.val), ("comma", jo jp v.comma)]
def arr (a : InlineArray) : Json := obj "InlineArray" [("comments", range a.comments), ("l_par", jp a.lPar),
  ("values", jl (a.values.map arrVal)), ("end", endJ a.stop)]
def tabAsg (a : InlineTableAssignment) : Json := obj "InlineTableAssignment"
  [("assignment", assignment a.assignment), ("comma", jo jp a.comma)]
def top (t : ToplevelAssignment) : Json :=
  obj "ToplevelAssignment" [("comments", range t.comments), ("assignment", assignment t.assignment)]
def comment (c : Comment) : Json := obj "Comment" [("span", js c.span), ("text", jt c.text)]
def assoc (c : AssocComment) : Json :=
  obj "AssocComment" [("pos", en c.pos), ("level", jn c.level), ("comment", comment c.comment)]
def table (t : Table) : Json := obj "Table" [("comments", range t.comments), ("header", obj "TableHeader"
  [("l_par", jp t.header.lPar), ("key", jo key t.header.key), ("r_par", jo jp t.header.rPar)]),
  ("assignments", jl (t.assignments.map top))]
def entry (t : ArrayEntry) : Json := obj "ArrayEntry" [("comments", range t.comments), ("header", obj "ArrayHeader"
  [("l_pars", jl [jp t.header.lPars.1, jp t.header.lPars.2]), ("key", jo key t.header.key),
   ("r_pars", jl [jo jp t.header.rPars.1, jo jp t.header.rPars.2])]), ("assignments", jl (t.assignments.map top))]
def ast : Ast → Json
  | .assignment a => con "Assignment" [top a]
  | .table t => con "Table" [table t]
  | .array a => con "Array" [entry a]
  | .comment c => con "Comment" [comment c]
def scalar : Scalar → Json
  | .string s => con "String" [strVal s]
  | .int l s v => con "Int" [intVal l s v]
  | .float l s v => con "Float" [floatVal l s v]
  | .bool s v => con "Bool" [boolVal s v]
  | .dateTime l s v => con "DateTime" [dtVal l s v]
  | .invalid l s => con "Invalid" [jt l, js s]
def kv (xs : List (Str × Json)) : Json :=
  obj "Map" [("kv", .arr (xs.map fun x => Json.arr #[jt x.1, x.2]).toArray)]
def rkind : ReprKind → Json
  | .table t => con "Table" [table t]
  | .arrayEntry a => con "ArrayEntry" [entry a]
  | .toplevelAssignment a => con "ToplevelAssignment" [top a]
  | .inlineTableAssignment a => con "InlineTableAssignment" [tabAsg a]
def rkey : KeyRepr → Json
  | .one i => con "One" [ident i]
  | .dotted n is => con "Dotted" [jn n, jl (is.map dotted)]
def repr (r : Verif.TomlMap.Repr) : Json :=
  obj "Repr" [("parent", jn r.parent), ("key", rkey r.key), ("kind", rkind r.kind)]
partial def node : MapNode → Json
  | .table t => con "Table" [kv (t.map fun x => (x.1, obj "Entry" [("node", node x.2.node),
      ("reprs", jl (x.2.reprs.map repr))]))]
  | .toplevel es => con "Array" [con "Toplevel" [jl (es.map fun e => obj "ToplevelEntry"
      [("node", node (.table e.node)), ("parent", jn e.parent), ("repr", entry e.repr)])]]
  | .inline p r es => con "Array" [con "Inline" [obj "MapArrayInline" [("parent", jn p), ("repr", arr r),
      ("inner", jl (es.map fun e => obj "InlineEntry" [("node", node e.node), ("repr", arrVal e.repr)]))]]]
  | .scalar s => con "Scalar" [scalar s]
def tmap (t : MapTable) : Json := kv (t.map fun x => (x.1, obj "Entry" [("node", node x.2.node),
      ("reprs", jl (x.2.reprs.map repr))]))
partial def simple : SimpleVal → Json
  | .table t => con "Table" [kv (t.map fun x => (x.1, simple x.2))]
  | .array vs => con "Array" [jl (vs.map simple)]
  | .string s => con "String" [jt s]
  | .int n => con "Int" [ji n]
  | .float f => con "Float" [fl f]
  | .bool b => con "Bool" [.bool b]
  | .dateTime d => con "DateTime" [datetime d]
  | .invalid s => con "Invalid" [jt s]

def doc (t : Str) (f : MapTable → Json) : Json :=
  match parseDocument true t with
  | .ok a s => match Verif.TomlMap.map a.asts with
    | some (m, es) => jl [f m, jl ((s.errors ++ es).map err)]
    | none => .str "panic"
  | _ => .str "panic"
def run (kind : String) (t : Str) : Json :=
  match kind with
  | "lex" => match lex t with
    | some (ts, es) => jl [tokens ts, jl (es.map err)]
    | none => .str "panic"
  | "str" => match lex t with
    | some (ts, es) => match ts.tokens with
      | [⟨.string i, _⟩] => match ts.strings[i]? with
        | some s => jl [jt s.lit, jt s.text, jl (es.map err)]
        | none => .str "panic"
      | _ => .str "not one token"
    | none => .str "panic"
  | "parse" => match parseDocument true t with
    | .ok a s => jl [Json.mkObj [("asts", jl (a.asts.map ast)), ("comments", jl (a.comments.map assoc))],
        jl (s.errors.map err)]
    | _ => .str "panic"
  | "map" => doc t tmap
  | _ => doc t fun m => kv ((mapSimple m).map fun x => (x.1, simple x.2))
end T

namespace S
open Verif.Semver
def err : Error → Json
  | .trailingCharacters s f p => con "TrailingCharacters" [jt s, jo en f, jp p]
  | .missingField f p => con "MissingField" [en f, jp p]
  | .leadingZeroNum f p => con "LeadingZeroNum" [en f, jp p]
  | .invalidIntChar c f p => con "InvalidIntChar" [jc c, en f, jp p]
  | .intOverflow f p n => con "IntOverflow" [en f, jp p, jn n]
  | .expectedDot c f p => con "ExpectedDot" [jc c, en f, jp p]
  | .missingDot f p => con "MissingDot" [en f, jp p]
  | .emptyIdentifier f p => con "EmptyIdentifier" [en f, jp p]
  | .emptyIdentifierSegment f p => con "EmptyIdentifierSegment" [en f, jp p]
  | .leadingZeroSegment f p => con "LeadingZeroSegment" [en f, jp p]
  | .invalidOp c p => con "InvalidOp" [jc c, jp p]
  | .missingComma p => con "MissingComma" [jp p]
  | .trailingComma p => con "TrailingComma" [jp p]
  | .wildcardNotTheSoleComparator w p => con "WildcardNotTheSoleComparator" [en w, jp p]
  | .excessiveComparators p n => con "ExcessiveComparators" [jp p, jn n]
  | .emptyVersionReq p => con "EmptyVersionReq" [jp p]
  | .unexpectedAfterWildcard c f p => con "UnexpectedAfterWildcard" [jc c, en f, jp p]
def version (v : Version) : Json := obj "Version" [("major", jn v.major), ("minor", jn v.minor),
  ("patch", jn v.patch), ("pre", jt v.pre), ("meta", jt v.build)]
def comp : CompVersion → Json
  | .wl w => con "Wl" [en w]
  | .major a w => con "Major" [jn a, jo (fun x => jl [en x.1, jo en x.2]) w]
  | .minor a b w => con "Minor" [jn a, jn b, jo en w]
  | .patch a b c m => con "Patch" [jn a, jn b, jn c, jo jt m]
  | .pre a b c p m => con "Pre" [jn a, jn b, jn c, jt p, jo jt m]
def cmp (c : Comparator) : Json := obj "Comparator" [("op_offset", jn c.opOffset), ("op", en c.op),
  ("version_offset", jn c.versionOffset), ("version", comp c.version), ("comma", jo jn c.comma)]
def req (r : VersionReq) : Json := obj "VersionReq" [("pos", jp r.pos), ("len", jn r.len),
  ("comparators", jl (r.comparators.map cmp))]
def run (kind : String) (t : Str) : Json :=
  let v := parseVersion true t ⟨0, 0⟩
  let r := parseRequirement true t ⟨0, 0⟩
  match kind, v, r with
  | "version", .ok v, _ => jl [version v]
  | "vdisplay", .ok v, _ => jl [jt (displayVersion v)]
  | "verr", .err e, _ => jl [err e]
  | "req", _, .ok r => jl [req r]
  | "rdisplay", _, .ok r => jl [jo jt (displayReq false r), jo jt (displayReq true r)]
  | "rerr", _, .err e => jl [err e]
  | "reqok", _, .ok _ => jl []
  | "match", _, _ =>
    match parseRequirement true (t.takeWhile (· != '\n')) ⟨0, 0⟩,
        parseVersion true ((t.dropWhile (· != '\n')).drop 1) ⟨0, 0⟩ with
    | .ok r, .ok v => jl [jo Json.bool (matchesRequirement r v)]
    | _, _ => .str "no"
  | _, _, _ => .str "no"
end S

namespace D
open Verif.Index
instance : Inhabited Verif.Index.Json := ⟨.null⟩
partial def conv : Lean.Json → Verif.Index.Json
  | .null => .null
  | .bool b => .bool b
  | .num _ => .num
  | .str s => .str true s.toList
  | .arr xs => .arr (xs.toList.map conv)
  | .obj m => .obj (m.toList.map fun (k, v) => ((k.toList, true), conv v))
def reader (l : Str) : Option Verif.Index.Json :=
  match Lean.Json.parse (String.ofList l) with
  | .ok j => some (conv j)
  | .error _ => none
def ver (v : Semver.Version) : Lean.Json := jt (Semver.displayVersion v)
def dep (d : Dep) : Lean.Json := obj "Dependency" [("name", jt d.name), ("package", jo jt d.package),
  ("req", jo jt (Semver.displayReq false d.req)), ("default_features", .bool d.defaultFeatures),
  ("features", jl (d.features.map jt)), ("kind", en d.kind), ("target", jo jt d.target),
  ("optional", .bool d.optional)]
def run (t : Str) : Lean.Json :=
  match parseCrate (fromStr true reader) t with
  | .ok c => match c.versions[68]? with
    | some v => jl [jt c.name, obj "Version" [("vers", ver v.vers), ("yanked", .bool v.yanked),
        ("rust_version", jo ver v.rustVersion), ("default_features", jo (fun ms => jl (ms.map jt)) v.defaultFeatures),
        ("features", T.kv (v.features.map fun x => (x.1, jl (x.2.map jt)))), ("deps", jl (v.deps.map dep))]]
    | none => .str "no"
  | _ => .str "no"
end D

def main (args : List String) : IO Unit := do
  for d in args do
    for l in (← IO.FS.lines d) do
      match l.splitOn " " with
      | [k, f] => do
        let t := (← IO.FS.readFile (f ++ ".in")).toList
        let j := if k ∈ ["lex", "str", "parse", "map", "simple"] then T.run k t else if k = "index" then D.run t else S.run k t
        IO.FS.writeFile (f ++ ".out") j.compress
      | _ => pure ()
