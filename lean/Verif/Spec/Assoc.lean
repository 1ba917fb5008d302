import Verif.Spec.Grammar

/-!
# Specification: what the comments of a document belong to

A document of the grammar of `Spec/Grammar.lean` as a list of lines, where a line break inside of an array does not end a line.
-/

namespace Verif.Spec.Toml
open Verif Verif.Toml

/-- A comment of the text: its contents and its place. -/
abbrev Com := Str × Pos

/-- The comments among tokens. -/
def commentsIn (ts : List Tok) : List Com :=
  ts.filterMap fun t => match t.1 with
    | .comment x => some (x, t.2)
    | _ => none

/-- A line of a document. -/
inductive Ln
  | blank
  | comment (c : Com)
  /-- A header, the place of its first bracket, and a comment behind it. -/
  | header (p : Pos) (tail : Option Com)
  /-- An assignment, the place of its `=`, the comments inside of its value, and a comment behind it. -/
  | keyVal (p : Pos) (inner : List Com) (tail : Option Com)

/-- The token of a comment at the end of a line. -/
def tailTok : Option Com → List Tok
  | some c => [(.comment c.1, c.2)]
  | none => []

/-- `LineIs inTable ts l`: the tokens `ts` without the line break are the line `l`. -/
inductive LineIs (inTable : Bool) : List Tok → Ln → Prop
  | blank : LineIs inTable [] .blank
  | comment {x p} : LineIs inTable [(.comment x, p)] (.comment (x, p))
  | keyVal {kt k p vt v o} : KeyToks kt k → Val (depthLimit inTable) vt v →
      LineIs inTable (kt ++ (.punct '=', p) :: vt ++ tailTok o) (.keyVal p (commentsIn vt) o)
  | table {p q kt k o} : KeyToks kt k →
      LineIs inTable ((.punct '[', p) :: (kt ++ [(.punct ']', q)]) ++ tailTok o) (.header p o)
  | arrayTable {p q kt k o} : KeyToks kt k →
      LineIs inTable ((.punct '[', p) :: (.punct '[', p.plus 1) ::
        (kt ++ [(.punct ']', q), (.punct ']', q.plus 1)]) ++ tailTok o) (.header p o)

/-- Is the line a header? -/
def Ln.isHeader : Ln → Bool
  | .header _ _ => true
  | _ => false

/-- Is the line a comment alone? -/
def Ln.isComment : Ln → Bool
  | .comment _ => true
  | _ => false

/-- Is the line a header or an assignment? -/
def Ln.isExpr : Ln → Bool
  | .header _ _ => true
  | .keyVal _ _ _ => true
  | _ => false

/-- The place of a header or an assignment. -/
def Ln.place : Ln → Option Pos
  | .header p _ => some p
  | .keyVal p _ _ => some p
  | _ => none

/-- The comments of a line. -/
def Ln.coms : Ln → List Com
  | .blank => []
  | .comment c => [c]
  | .header _ o => o.toList
  | .keyVal _ cs o => cs ++ o.toList

/-- `DocLines inTable ts ls`: the tokens of a document are the lines `ls`. -/
inductive DocLines : Bool → List Tok → List Ln → Prop
  | last {b ts l} : LineIs b ts l → DocLines b ts [l]
  | more {b ts l p ts' ls} : LineIs b ts l → DocLines (b || l.isHeader) ts' ls →
      DocLines b (ts ++ (.newline, p) :: ts') (l :: ls)

/-! ## What a comment on its own line belongs to -/

/-- The comments of the lines at the end of `xs` that are comments alone: those directly above the next line. -/
def runAbove (xs : List Ln) : List Com := (xs.reverse.takeWhile Ln.isComment).reverse.flatMap Ln.coms

/-- The header of the table that is open behind the lines `xs`. -/
def openHeader : List Ln → Option Pos
  | [] => none
  | .header p _ :: xs => (openHeader xs).or (some p)
  | _ :: xs => openHeader xs

/-- The next header or assignment. -/
def nextExpr (ys : List Ln) : Option Ln := ys.find? Ln.isExpr

/-- What a comment belongs to: it is directly above a header or an assignment, contained in a table, or to nothing. -/
inductive Fate
  | above (p : Pos)
  | inside (p : Pos)
  | free

/-- What a comment between the lines `xs` and `ys` belongs to: to the header or assignment below if there are only such comments in
between; otherwise to the table of the last header if an assignment of this table follows. -/
def fate (xs ys : List Ln) : Fate :=
  match ys.dropWhile Ln.isComment with
  | .header p _ :: _ => .above p
  | .keyVal p _ _ :: _ => .above p
  | _ => match openHeader xs, nextExpr ys with
    | some p, some (.keyVal _ _ _) => .inside p
    | _, _ => .free

/-- The level of an assignment behind the lines `xs`. -/
def levelBehind (xs : List Ln) : Nat := if xs.any Ln.isHeader then 1 else 0

/-! ## What the tree says -/

/-- A comment of the tree. -/
def comOf (c : Comment) : Com := (c.text, c.span.start)

/-- A comment that belongs to something: where it is, its level, and the comment. -/
abbrev Seen := AssocPos × Nat × Com

/-- What the tree says of a comment. -/
def seen (c : AssocComment) : Seen := (c.pos, c.level, comOf c.comment)

/-- The comments of a range. -/
def storedIn (cs : List AssocComment) (r : CommentRange) : List AssocComment := (cs.drop r.start).take r.len

/-- A table or an element of an array of tables: the place of the first bracket, its comments and its assignments. -/
def tablePart : Ast → Option (Pos × CommentRange × List ToplevelAssignment)
  | .table t => some (t.header.lPar, t.comments, t.assignments)
  | .array t => some (t.header.lPars.1, t.comments, t.assignments)
  | _ => none

/-- `HasItem asts p r`: the header whose first bracket is at `p`, or the assignment whose `=` is at `p`, is in the tree, and the
range of its comments is `r`. -/
inductive HasItem (asts : List Ast) : Pos → CommentRange → Prop
  | root {x} : .assignment x ∈ asts → HasItem asts x.assignment.eq x.comments
  | table {a p r as} : a ∈ asts → tablePart a = some (p, r, as) → HasItem asts p r
  | inTable {a p r as x} : a ∈ asts → tablePart a = some (p, r, as) → x ∈ as →
      HasItem asts x.assignment.eq x.comments

/-- There is one header or assignment at `p`, and its comments are `cs`. -/
def Owns (a : Asts) (p : Pos) (cs : List Seen) : Prop :=
  ∃ r, HasItem a.asts p r ∧ (∀ r', HasItem a.asts p r' → r' = r) ∧ (storedIn a.comments r).map seen = cs

end Verif.Spec.Toml
