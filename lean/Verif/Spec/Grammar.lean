import Verif.Spec.Parse

/-!
# Specification: the grammar of TOML documents

Which lists of tokens are documents, and which items they say.  Written from the TOML 1.0 grammar, over
the tokens of `Spec/Lex.lean`; nothing here refers to the parser except the types of the syntax tree in
the last section.  Where the code is known to be more liberal than TOML, the comment says so.
-/

namespace Verif.Spec.Toml
open Verif Verif.Toml

/-- A token: what it says, and its place. -/
abbrev Tok := View × Pos

/-- The meaning of a value. -/
inductive TVal
  | str (s : Str)
  | int (n : Int)
  | float (f : FloatVal)
  | bool (b : Bool)
  | dateTime (d : DateTime)
  | array (vs : List TVal)
  | table (kvs : List (List Str × TVal))
  | malformed (s : Str)

/-- An item of a document: a header of a table or of an entry of an array of tables, or an
assignment. -/
inductive Item
  | table (k : List Str)
  | arrayTable (k : List Str)
  | keyVal (k : List Str) (v : TVal)

/-! ## Keys -/

/-- `unquoted-key = 1*( ALPHA / DIGIT / %x2D / %x5F )`. -/
def BareChar (c : Char) : Prop :=
  ('a' ≤ c ∧ c ≤ 'z') ∨ ('A' ≤ c ∧ c ≤ 'Z') ∨ ('0' ≤ c ∧ c ≤ '9') ∨ c = '_' ∨ c = '-'

/-- `simple-key = quoted-key / unquoted-key`, where quoted keys are single-line strings. -/
inductive KeyPart : View → Str → Prop
  | bare {w} : (∀ c ∈ w, BareChar c) → KeyPart (.word w) w
  | quoted {q lit txt} : isMulti q = false → KeyPart (.string q lit txt) txt

/-- `key = simple-key / dotted-key`: the tokens and the names. -/
inductive KeyToks : List Tok → List Str → Prop
  | one {v p n} : KeyPart v n → KeyToks [(v, p)] [n]
  | dot {v p q n ts ns} : KeyPart v n → KeyToks ts ns →
      KeyToks ((v, p) :: (.punct '.', q) :: ts) (n :: ns)

/-! ## Scalars -/

/-- Adjacent words and dots from the place `p` on, and their text. -/
inductive Pieces : Pos → List Tok → Str → Prop
  | nil {p} : Pieces p [] []
  | dot {p ts x} : Pieces (p.plus 1) ts x → Pieces p ((.punct '.', p) :: ts) ('.' :: x)
  | word {p w ts x} : Pieces (p.plus (blen w)) ts x → Pieces p ((.word w, p) :: ts) (w ++ x)

/-- The tokens of a bare literal with the text `x` from the place `p` on: a word, and adjacent words
and dots. -/
def Bare (p : Pos) (ts : List Tok) (x : Str) : Prop :=
  ∃ w ts' y, ts = (.word w, p) :: ts' ∧ x = w ++ y ∧ Pieces (p.plus (blen w)) ts' y

/-- The meaning of a bare literal.  More liberal than TOML: prefixed integers are taken modulo `2^64`,
capitalised infinities and not-a-numbers with a sign, and date-times as in `LooseDateTime`. -/
inductive Scalar : Str → TVal → Prop
  | int {s n} : DecInt s n → InRange n → Scalar s (.int n)
  | prefixed {s m n} : PrefixedInt s m → InRange n → (18446744073709551616 : Int) ∣ m - n →
      Scalar s (.int n)
  | float {s} : FloatText s → Scalar s (.float (.parsed (s.filter (· ≠ '_'))))
  | inf {s f} : SpecialFloat "inf".toList s f → Scalar s (.float (.inf (f < 0)))
  | nan {s f} : SpecialFloat "nan".toList s f → Scalar s (.float (.nan (f < 0)))
  | plusInf : Scalar "+Inf".toList (.float (.inf false))
  | minusInf : Scalar "-Inf".toList (.float (.inf true))
  | plusNan : Scalar "+Nan".toList (.float (.nan false))
  | minusNan : Scalar "-Nan".toList (.float (.nan true))
  | yes : Scalar "true".toList (.bool true)
  | no : Scalar "false".toList (.bool false)
  | dateTime {s d} : LooseDateTime d s → Scalar s (.dateTime d)

/-- A date, and behind one blank a time with an optional offset (`x` and `y` are their texts).  More
liberal than TOML: as in `LooseDateTime`. -/
inductive Spaced : Str → Str → DateTime → Prop
  | loc {x y d t} : LooseDate d x → TimeText t y → Spaced x y (.localDateTime d t)
  | offset {x ts os junk d t o} : LooseDate d x → TimeText t ts → OffsetText o os →
      Spaced x (ts ++ os ++ junk) (.offsetDateTime d t o)

/-! ## Values -/

/-- Line breaks and comments. -/
def Gap (ts : List Tok) : Prop := ∀ t ∈ ts, t.1 = .newline ∨ ∃ x, t.1 = .comment x

/-- An element of an array, with line breaks and comments around it. -/
structure Elem where
  before : List Tok
  toks : List Tok
  after : List Tok
  val : TVal

/-- What follows `[`: elements that are separated by commas, with an optional trailing comma. -/
inductive ArrayBody : List Elem → List Tok → Prop
  | close {g p} : Gap g → ArrayBody [] (g ++ [(.punct ']', p)])
  | last {e p} : ArrayBody [e] (e.before ++ e.toks ++ e.after ++ [(.punct ']', p)])
  | more {e es ts p} : ArrayBody es ts →
      ArrayBody (e :: es) (e.before ++ e.toks ++ e.after ++ (.punct ',', p) :: ts)

/-- An assignment in an inline table. -/
structure Entry where
  key : List Tok
  eq : Pos
  toks : List Tok
  names : List Str
  val : TVal

/-- The tokens of an assignment. -/
def Entry.all (e : Entry) : List Tok := e.key ++ (.punct '=', e.eq) :: e.toks

/-- What follows `{`: assignments that are separated by commas, without a trailing comma. -/
inductive TableBody : List Entry → List Tok → Prop
  | close {p} : TableBody [] [(.punct '}', p)]
  | last {e p} : TableBody [e] (e.all ++ [(.punct '}', p)])
  | more {e e' es ts p} : TableBody (e' :: es) ts →
      TableBody (e :: e' :: es) (e.all ++ (.punct ',', p) :: ts)

/-- `Val n ts v`: the tokens `ts` write the value `v`, with at most `n` brackets of arrays and inline
tables around a part of it.  More liberal than TOML: the blank between a date and a time may be a tab. -/
inductive Val : Nat → List Tok → TVal → Prop
  | string {n q lit txt p} : Val n [(.string q lit txt, p)] (.str txt)
  | bare {n p ts x v} : Bare p ts x → Scalar x v → Val n ts v
  | spaced {n p q ts ts' x y d} : Bare p ts x → Bare q ts' y → q = (p.plus (blen x)).plus 1 →
      Spaced x y d → Val n (ts ++ ts') (.dateTime d)
  | array {n p es ts} : (∀ e ∈ es, Gap e.before ∧ Gap e.after) → (∀ e ∈ es, Val n e.toks e.val) →
      ArrayBody es ts → Val (n + 1) ((.punct '[', p) :: ts) (.array (es.map (·.val)))
  | table {n p es ts} : (∀ e ∈ es, KeyToks e.key e.names) → (∀ e ∈ es, Val n e.toks e.val) →
      TableBody es ts → Val (n + 1) ((.punct '{', p) :: ts) (.table (es.map fun e => (e.names, e.val)))

/-! ## Documents -/

/-- The number of brackets allowed around a part of a value, in front of the first header and behind
it. -/
def depthLimit (inTable : Bool) : Nat := if inTable then 99 else 100

/-- `expression`, other than a comment; `inTable` says that there is a header in front of it. -/
inductive Expr (inTable : Bool) : List Tok → Item → Prop
  | keyVal {kt k p vt v} : KeyToks kt k → Val (depthLimit inTable) vt v →
      Expr inTable (kt ++ (.punct '=', p) :: vt) (.keyVal k v)
  | table {p q kt k} : KeyToks kt k →
      Expr inTable ((.punct '[', p) :: (kt ++ [(.punct ']', q)])) (.table k)
  | arrayTable {p q kt k} : KeyToks kt k →
      Expr inTable ((.punct '[', p) :: (.punct '[', p.plus 1) ::
        (kt ++ [(.punct ']', q), (.punct ']', q.plus 1)])) (.arrayTable k)

/-- Is there a header among the items? -/
def hasHeader (is : List Item) : Bool :=
  is.any fun i => match i with
    | .keyVal _ _ => false
    | _ => true

/-- A line without its line break: an optional expression and an optional comment. -/
inductive Line (inTable : Bool) : List Tok → List Item → Prop
  | blank : Line inTable [] []
  | comment {x p} : Line inTable [(.comment x, p)] []
  | expr {ts i} : Expr inTable ts i → Line inTable ts [i]
  | exprComment {ts i x p} : Expr inTable ts i → Line inTable (ts ++ [(.comment x, p)]) [i]

/-- `toml = expression *( newline expression )`. -/
inductive Doc : Bool → List Tok → List Item → Prop
  | last {b ts is} : Line b ts is → Doc b ts is
  | more {b ts is p ts' is'} : Line b ts is → Doc (b || hasHeader is) ts' is' →
      Doc b (ts ++ (.newline, p) :: ts') (is ++ is')

/-- Opening brackets minus closing brackets. -/
def bracketDepth (ts : List Tok) : Int :=
  (ts.map fun t => match t.1 with
    | .punct c => if c = '[' ∨ c = '{' then (1 : Int) else if c = ']' ∨ c = '}' then -1 else 0
    | _ => 0).sum

/-! ## What a syntax tree says -/

/-- The names of a key. -/
def keyNames (k : Key) : List Str := k.idents.map (·.text)

mutual

/-- The meaning of a value of the tree. -/
def valueOf : Value → TVal
  | .string s => .str s.text
  | .int _ _ n => .int n
  | .float _ _ f => .float f
  | .bool _ b => .bool b
  | .dateTime _ _ d => .dateTime d
  | .inlineTable ⟨_, as, _⟩ => .table (pairsOf as)
  | .inlineArray ⟨_, _, vs, _⟩ => .array (valuesOf vs)
  | .invalid l _ => .malformed l

/-- The meaning of the elements of an array. -/
def valuesOf : List InlineArrayValue → List TVal
  | [] => []
  | ⟨_, v, _⟩ :: vs => valueOf v :: valuesOf vs

/-- The meaning of the assignments of an inline table. -/
def pairsOf : List InlineTableAssignment → List (List Str × TVal)
  | [] => []
  | ⟨⟨k, _, v⟩, _⟩ :: as => (keyNames k, valueOf v) :: pairsOf as

end

/-- The item of an assignment. -/
def assignmentItem (a : ToplevelAssignment) : Item :=
  .keyVal (keyNames a.assignment.key) (valueOf a.assignment.val)

/-- The names of the key of a header; none if the key is missing. -/
def headerNames (k : Option Key) : List Str := (k.map keyNames).getD []

/-- The items that a part of the tree says: the header of a table, and its assignments. -/
def astItems : Ast → List Item
  | .assignment a => [assignmentItem a]
  | .table t => .table (headerNames t.header.key) :: t.assignments.map assignmentItem
  | .array t => .arrayTable (headerNames t.header.key) :: t.assignments.map assignmentItem
  | .comment _ => []

/-- Assignments outside of tables are in front of the first header. -/
def RootFirst (asts : List Ast) : Prop :=
  ∀ a x b, asts = a ++ .assignment x :: b → hasHeader (a.flatMap astItems) = false

end Verif.Spec.Toml
