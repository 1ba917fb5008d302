import Verif.Toml.Ast
import Verif.Diag.Model

/-!
# Model of the map of a TOML document (crates/toml/src/map.rs)

* A `MapTable` is a list of its entries in the order of insertion (the order of `IndexMap`; with
  `HashMap` the order is arbitrary, and `get` is all that the functions of this file use).
* A `&mut` reference into the map is a value that is taken out and put back.
* A `Path` is the list of its segments, the last one first; `None` is the empty list.
* References to parts of the syntax tree are the parts themselves.
* `as u32` does not truncate (fewer than `2^32` identifiers and representations).
* A panic (`unreachable!`, an index out of bounds, `unwrap`, or undefined behaviour of an unchecked
  access) is `none`.
-/

namespace Verif.TomlMap
open Verif Verif.Toml

/-! ## Spans of the syntax tree -/

/-- `Key::start` (crates/toml/src/parse.rs:377-382); `None`: `unwrap` panics. -/
def keyStart : Key → Option Pos
  | .one i => some i.litStart
  | .dotted is => is.head?.map (·.ident.litStart)

/-- `Key::end` (crates/toml/src/parse.rs:385-395); `None`: `unwrap` panics. -/
def keyEnd : Key → Option Pos
  | .one i => some i.litEnd
  | .dotted is => is.getLast?.map fun l =>
      match l.dot with
      | some p => p.plus 1
      | none => l.ident.litEnd

/-- `Assignment::span` (crates/toml/src/parse.rs:343-355), and `ToplevelAssignment::span`
(crates/toml/src/parse.rs:319-331). -/
def assignmentSpan (a : Assignment) : Option Span := do
  let s ← keyStart a.key
  pure ⟨s, a.val.stop⟩

/-- `InlineTableAssignment::span` (crates/toml/src/parse.rs:625-639). -/
def inlineAssignmentSpan (a : InlineTableAssignment) : Option Span := do
  let s ← keyStart a.assignment.key
  pure ⟨s, a.end⟩

/-- `TableHeader::end` (crates/toml/src/parse.rs:211-215). -/
def tableHeaderEnd (h : TableHeader) : Option Pos :=
  match h.rPar, h.key with
  | some p, _ => some (p.plus 1)
  | none, some k => keyEnd k
  | none, none => some (h.lPar.plus 1)

/-- `ArrayHeader::end` (crates/toml/src/parse.rs:296-301). -/
def arrayHeaderEnd (h : ArrayHeader) : Option Pos :=
  match h.rPars.2.or h.rPars.1, h.key with
  | some p, _ => some (p.plus 1)
  | none, some k => keyEnd k
  | none, none => some (h.lPars.2.plus 1)

/-- `Table::span` (crates/toml/src/parse.rs:156-171). -/
def tableSpan (t : Table) : Option Span := do
  let e ← match t.assignments.getLast? with
    | some a => some a.assignment.val.stop
    | none => tableHeaderEnd t.header
  pure ⟨t.header.lPar, e⟩

/-- `ArrayEntry::span` (crates/toml/src/parse.rs:230-245). -/
def arrayEntrySpan (t : ArrayEntry) : Option Span := do
  let e ← match t.assignments.getLast? with
    | some a => some a.assignment.val.stop
    | none => arrayHeaderEnd t.header
  pure ⟨t.header.lPars.1, e⟩

/-! ## The map -/

/-- `MapTableEntryReprKind` (crates/toml/src/map.rs:146-151). -/
inductive ReprKind
  | table (t : Table)
  | arrayEntry (a : ArrayEntry)
  | toplevelAssignment (a : ToplevelAssignment)
  | inlineTableAssignment (a : InlineTableAssignment)

/-- `MapTableEntryReprKind::span` (crates/toml/src/map.rs:155-162). -/
def ReprKind.span : ReprKind → Option Span
  | .table t => tableSpan t
  | .arrayEntry a => arrayEntrySpan a
  | .toplevelAssignment a => assignmentSpan a.assignment
  | .inlineTableAssignment a => inlineAssignmentSpan a

/-- `MapTableEntryReprKind::is_assignment` (crates/toml/src/map.rs:165-172). -/
def ReprKind.isAssignment : ReprKind → Bool
  | .table _ => false
  | .arrayEntry _ => false
  | .toplevelAssignment _ => true
  | .inlineTableAssignment _ => true

/-- `MapTableKeyRepr` (crates/toml/src/map.rs:176-179). -/
inductive KeyRepr
  | one (i : Ident)
  | dotted (idx : Nat) (ids : List DottedIdent)

/-- `MapTableKeyRepr::repr_ident` (crates/toml/src/map.rs:183-188); `None`: the index is out of
bounds. -/
def KeyRepr.reprIdent : KeyRepr → Option Ident
  | .one i => some i
  | .dotted idx ids => ids[idx]?.map (·.ident)

/-- `MapTableKeyRepr::is_last_ident` (crates/toml/src/map.rs:190-195).  Simplification: without the
panic for an empty list of identifiers, which `reprIdent` has. -/
def KeyRepr.isLast : KeyRepr → Bool
  | .one _ => true
  | .dotted idx ids => idx + 1 == ids.length

/-- `MapTableEntryRepr` (crates/toml/src/map.rs:124-129); a `ParentId` is a `Nat`. -/
structure Repr where
  parent : Nat
  key : KeyRepr
  kind : ReprKind

/-- `MapTableEntryRepr::repr_span` (crates/toml/src/map.rs:137-139). -/
def Repr.span (r : Repr) : Option Span := do
  let i ← r.key.reprIdent
  let s ← r.kind.span
  pure ⟨i.litStart, s.stop⟩

/-- `ROOT_PARENT` (crates/toml/src/map.rs:55). -/
def ROOT_PARENT : Nat := 4294967295

/-- `Scalar` (crates/toml/src/map.rs:351-358). -/
inductive Scalar
  | string (s : StringVal)
  | int (lit : Str) (litSpan : Span) (val : Int)
  | float (lit : Str) (litSpan : Span) (val : FloatVal)
  | bool (litSpan : Span) (val : Bool)
  | dateTime (lit : Str) (litSpan : Span) (val : DateTime)
  | invalid (lit : Str) (span : Span)

/-- `MapTableEntry` (crates/toml/src/map.rs:104-108), over the type of nodes; the field `reprs` is a
`OneVec`. -/
structure EntryF (N : Type) where
  node : N
  reprs : List Repr

/-- `MapTable` (crates/toml/src/map.rs:68-70), over the type of nodes. -/
abbrev TableF (N : Type) := List (Str × EntryF N)

/-- `MapArrayToplevelEntry` (crates/toml/src/map.rs:244-248). -/
structure ArrayTableF (N : Type) where
  node : List (Str × EntryF N)
  parent : Nat
  repr : ArrayEntry

/-- `MapArrayInlineEntry` (crates/toml/src/map.rs:332-335). -/
structure InlineEntryF (N : Type) where
  node : N
  repr : InlineArrayValue

/-- `MapNode` (crates/toml/src/map.rs:344-348), with the two cases of `MapArray`
(crates/toml/src/map.rs:199-202), `MapArrayToplevel` (205-207; a `OneVec`) and `MapArrayInline`
(257-261). -/
inductive MapNode
  | table (t : List (Str × EntryF MapNode))
  | toplevel (es : List (ArrayTableF MapNode))
  | inline (parent : Nat) (repr : InlineArray) (es : List (InlineEntryF MapNode))
  | scalar (s : Scalar)

abbrev Entry := EntryF MapNode
abbrev MapTable := TableF MapNode
abbrev ArrayTable := ArrayTableF MapNode
abbrev InlineEntry := InlineEntryF MapNode

/-- `MapTable::get` (crates/toml/src/map.rs:79-81), and looking for an occupied `entry`. -/
def get {N : Type} : TableF N → Str → Option (EntryF N)
  | [], _ => none
  | (k, e) :: t, x => if k = x then some e else get t x

/-- Storing an entry: in its place if it is occupied, at the end if it is vacant. -/
def put {N : Type} : TableF N → Str → EntryF N → TableF N
  | [], x, e => [(x, e)]
  | (k, e') :: t, x, e => if k = x then (k, e) :: t else (k, e') :: put t x e

/-! ## Paths -/

/-- `PathSegment` (crates/toml/src/map.rs:382-385). -/
inductive Seg
  | table (reprs : List Repr)
  | array (i : Nat)

/-- `fmt_path_segment` (crates/toml/src/map.rs:486-503). -/
def fmtSegment (text : Str) : Str :=
  if text = [] then "''".toList
  else if text.any fun c => !(isAlpha c || isDigit c || c == '_' || c == '-') then
    ['\''] ++ text.flatMap Diag.fmtChar ++ ['\'']
  else text

/-- The text of the first representation of a segment, `reprs.first().key.repr_ident()`. -/
def firstText (reprs : List Repr) : Option Str := do
  let r ← reprs.head?
  let i ← r.key.reprIdent
  pure i.text

/-- `fmt_path` (crates/toml/src/map.rs:442-467). -/
def fmtPath : List Seg → Option Str
  | [] => none
  | [.table rs] => do
    let x ← firstText rs
    pure (fmtSegment x)
  | [.array _] => none
  | .table rs :: s :: prev => do
    let buf ← fmtPath (s :: prev)
    let x ← firstText rs
    pure (buf ++ '.' :: fmtSegment x)
  | .array i :: s :: prev => do
    let buf ← fmtPath (s :: prev)
    pure (buf ++ '[' :: Spec.decimal i ++ [']'])

/-- `joined_path` (crates/toml/src/map.rs:469-484). -/
def joinedPath (prev : List Seg) (key : Ident) : Option Str :=
  match prev with
  | [] => some (fmtSegment key.text)
  | s :: p => do
    let buf ← fmtPath (s :: p)
    pure (buf ++ '.' :: fmtSegment key.text)

/-- `collect_lines` (crates/toml/src/map.rs:522-536); `None`: an index is out of bounds. -/
def collectLines : List Seg → Nat → Option (List Nat)
  | [], _ => some []
  | .table rs :: prev, parent => do
    let r ← rs[parent]?
    let i ← r.key.reprIdent
    let ls ← collectLines prev r.parent
    pure (i.litStart.line :: ls)
  | .array _ :: prev, parent => collectLines prev parent

/-- `Vec::dedup` (Rust's standard library): removes consecutive repeated elements. -/
def dedup : List Nat → List Nat
  | [] => []
  | [a] => [a]
  | a :: b :: l => if a = b then dedup (b :: l) else a :: dedup (b :: l)

/-- `context_lines` (crates/toml/src/map.rs:505-520), and `Path::context_lines`
(crates/toml/src/map.rs:412-420). -/
def contextLines (path : List Seg) (parents : List Nat) : Option (List Nat) :=
  match path with
  | [] => some []
  | s :: p => do
    let ls ← parents.mapM (collectLines (s :: p))
    pure (dedup (sortBy compare ls.flatten))

/-! ## Inserting -/

/-- A computation that may panic and that reports diagnostics (`ctx.error`). -/
def MapM (α : Type) := Option (α × List Error)

/-- Sequencing: the diagnostics are appended. -/
def MapM.bind {α β : Type} (x : MapM α) (f : α → MapM β) : MapM β :=
  match x with
  | none => none
  | some (a, es) =>
    match f a with
    | none => none
    | some (b, es') => some (b, es ++ es')

instance : Monad MapM where
  pure a := some (a, [])
  bind := MapM.bind

/-- `ctx.error`. -/
def report (e : Error) : MapM Unit := some ((), [e])

/-- A part that may only panic. -/
def lift {α : Type} (x : Option α) : MapM α := x.map fun a => (a, [])

/-- `InsertValue` (crates/toml/src/map.rs:539-542): a value, or assignments of a table, that are
inserted later; represented by the function that does it. -/
inductive InsertValue
  | value (f : List Seg → Nat → MapM MapNode)
  | tableAssignments (f : List Seg → Nat → MapTable → MapM MapTable)

/-- `map_insert_value` (crates/toml/src/map.rs:592-607). -/
def mapInsertValue (path : List Seg) (parent : Nat) : InsertValue → MapM MapNode
  | .value f => f path parent
  | .tableAssignments f => do
    let t ← f path parent []
    pure (.table t)

/-- `duplicate_key_error` (crates/toml/src/map.rs:1102-1113). -/
def duplicateKeyError (path : List Seg) (original duplicate : Repr) : Option Error := do
  let lines ← contextLines path [original.parent, duplicate.parent]
  let i ← duplicate.key.reprIdent
  let x ← joinedPath path i
  let o ← original.key.reprIdent
  pure (.duplicateKey lines x o.litSpan i.litSpan)

/-- The payload of the errors of `get_table_to_extend` and `insert_array_entry`
(crates/toml/src/map.rs:928-933, 1024-1029 and 1046-1051). -/
def extendError (mk : List Nat → Str → Span → Span → Error) (path : List Seg) (orig new : Repr) :
    Option Error := do
  let lines ← contextLines path [orig.parent, new.parent]
  let i ← new.key.reprIdent
  let x ← joinedPath path i
  let s ← orig.kind.span
  pure (mk lines x s i.litSpan)

/-- The same payload, where the path is the one of the extended table
(crates/toml/src/map.rs:1064-1069 and 1079-1084). -/
def extendError' (mk : List Nat → Str → Span → Span → Error) (prev next : List Seg)
    (orig new : Repr) : Option Error := do
  let lines ← contextLines prev [orig.parent, new.parent]
  let x ← fmtPath next
  let s ← orig.kind.span
  let i ← new.key.reprIdent
  pure (mk lines x s i.litSpan)

/-- The loop of `insert_node` over the representations (crates/toml/src/map.rs:778-792). -/
def superTableCheck (path : List Seg) (new : Repr) : List Repr → Option (Option Error)
  | [] => some none
  | r :: rs =>
    if !r.kind.isAssignment && !r.key.isLast then superTableCheck path new rs
    else do
      let e ← duplicateKeyError path r new
      pure (some e)

/-- The entry behind `Vacant` in `insert_node` (crates/toml/src/map.rs:750-758), and at the end of a
new chain (crates/toml/src/map.rs:701-711). -/
def freshNode (path : List Seg) (value : InsertValue) (repr : Repr) : MapM Entry := do
  let node ← mapInsertValue (.table [repr] :: path) 0 value
  pure ⟨node, [repr]⟩

/-- `insert_node` (crates/toml/src/map.rs:739-800); its error is reported by each caller. -/
def insertNode (path : List Seg) (map : MapTable) (key : Ident) (value : InsertValue) (repr : Repr) :
    MapM MapTable :=
  match get map key.text with
  | none => do
    let e ← freshNode path value repr
    pure (put map key.text e)
  | some existing =>
    match value with
    | .value _ => do
      let orig ← lift existing.reprs.head?
      let e ← lift (duplicateKeyError path orig repr)
      report e
      pure map
    | .tableAssignments f =>
      match existing.node with
      | .table t => do
        match ← lift (superTableCheck path repr existing.reprs) with
        | some e => do
          report e
          pure map
        | none => do
          let parent := existing.reprs.length
          let reprs := existing.reprs ++ [repr]
          let t' ← f (.table reprs :: path) parent t
          pure (put map key.text ⟨.table t', reprs⟩)
      | _ => do
        let orig ← lift existing.reprs.head?
        let e ← lift (duplicateKeyError path orig repr)
        report e
        pure map

/-- The loop of `get_table_to_extend` over the representations (crates/toml/src/map.rs:1058-1088). -/
def extendCheck (prev next : List Seg) (isAssignment : Bool) (orig dupe : Repr) :
    List Repr → Option (Option Error)
  | [] => some none
  | r :: rs =>
    match r.kind with
    | .table _ =>
      if isAssignment then do
        let e ← extendError' .cannotExtendTableWithDottedKey prev next orig dupe
        pure (some e)
      else extendCheck prev next isAssignment orig dupe rs
    | .arrayEntry _ => extendCheck prev next isAssignment orig dupe rs
    | .toplevelAssignment _ | .inlineTableAssignment _ =>
      if r.key.isLast then do
        let e ← extendError' .cannotExtendInlineTable prev next orig dupe
        pure (some e)
      else extendCheck prev next isAssignment orig dupe rs

/-- The result of `get_table_to_extend`: an error, or the index of the parent, the path, and the
table. -/
inductive Extend
  | err (e : Error)
  | ok (parent : Nat) (path : List Seg) (t : MapTable)

/-- `get_table_to_extend` (crates/toml/src/map.rs:1004-1091), with `insert_repr`
(crates/toml/src/map.rs:1093-1100); also returns the entry, where the representation is added. -/
def getTableToExtend (prev : List Seg) (entry : Entry) (repr : Repr) : Option (Entry × Extend) :=
  match entry.node with
  | .table t => do
    let reprs := entry.reprs ++ [repr]
    let next := .table reprs :: prev
    let orig ← reprs.head?
    let dupe ← reprs.getLast?
    match ← extendCheck prev next repr.kind.isAssignment orig dupe reprs with
    | some e => pure (⟨entry.node, reprs⟩, .err e)
    | none => pure (⟨entry.node, reprs⟩, .ok entry.reprs.length next t)
  | .toplevel es =>
    if repr.kind.isAssignment then do
      let orig ← entry.reprs.head?
      let e ← extendError .cannotExtendArrayWithDottedKey prev orig repr
      pure (entry, .err e)
    else do
      let reprs := entry.reprs ++ [repr]
      let i ← subU es.length 1
      let next := .array i :: .table reprs :: prev
      let last ← es.getLast?
      let orig ← reprs.head?
      let dupe ← reprs.getLast?
      match ← extendCheck prev next repr.kind.isAssignment orig dupe reprs with
      | some e => pure (⟨entry.node, reprs⟩, .err e)
      | none => pure (⟨entry.node, reprs⟩, .ok entry.reprs.length next last.node)
  | .inline _ _ _ => do
    let orig ← entry.reprs.head?
    let e ← extendError .cannotExtendInlineArrayAsTable prev orig repr
    pure (entry, .err e)
  | .scalar _ => do
    let orig ← entry.reprs.head?
    let e ← duplicateKeyError prev orig repr
    pure (entry, .err e)

/-- Puts back the table that `get_table_to_extend` gave out: the node itself, or the last entry of the
array. -/
def setTable (node : MapNode) (t : MapTable) : MapNode :=
  match node with
  | .table _ => .table t
  | .toplevel es =>
    match es.getLast? with
    | some l => .toplevel (es.dropLast ++ [{ l with node := t }])
    | none => node
  | n => n

/-- The tables behind `Vacant` in `insert_node_at_path` and `insert_array_entry_at_path`
(crates/toml/src/map.rs:682-712 and 830-873): a new table for each identifier but the last, and the
entry of the last one. -/
def vacantChain (fresh : List Seg → Repr → MapM Entry) (kind : ReprKind) (ids : List DottedIdent) :
    Nat → List DottedIdent → List Seg → Nat → MapM Entry
  | _, [], _, _ => none
  | _, [_], path, parent => fresh path ⟨parent, .dotted (ids.length - 1) ids, kind⟩
  | j, _ :: o' :: rest, path, parent => do
    let repr : Repr := ⟨parent, .dotted j ids, kind⟩
    let inner ← vacantChain fresh kind ids (j + 1) (o' :: rest) (.table [repr] :: path) 0
    pure ⟨.table (put [] o'.ident.text inner), [repr]⟩

/-- The loop over the identifiers of a dotted key (crates/toml/src/map.rs:675-736 and 823-905), where
`fresh` makes the entry of the last identifier in a new table, and `leaf` inserts it into an existing
one. -/
def walk (fresh : List Seg → Repr → MapM Entry)
    (leaf : List Seg → MapTable → Ident → Repr → MapM MapTable) (kind : ReprKind)
    (ids : List DottedIdent) :
    Nat → List DottedIdent → List Seg → Nat → MapTable → MapM MapTable
  | _, [], _, _, _ => none
  | _, [last], path, parent, map => leaf path map last.ident ⟨parent, .dotted (ids.length - 1) ids, kind⟩
  | i, o :: o' :: rest, path, parent, map =>
    match get map o.ident.text with
    | none => do
      let e ← vacantChain fresh kind ids i (o :: o' :: rest) path parent
      pure (put map o.ident.text e)
    | some entry => do
      let (entry, next) ← lift (getTableToExtend path entry ⟨parent, .dotted i ids, kind⟩)
      match next with
      | .err e => do
        report e
        pure (put map o.ident.text entry)
      | .ok parent path t => do
        let t' ← walk fresh leaf kind ids (i + 1) (o' :: rest) path parent t
        pure (put map o.ident.text ⟨setTable entry.node t', entry.reprs⟩)

/-- `insert_node_at_path` (crates/toml/src/map.rs:652-737). -/
def insertNodeAtPath (path : List Seg) (parent : Nat) (map : MapTable) (key : Key)
    (value : InsertValue) (kind : ReprKind) : MapM MapTable :=
  match key with
  | .one i => insertNode path map i value ⟨parent, .one i, kind⟩
  | .dotted ids =>
    walk (fun path => freshNode path value) (fun path map i => insertNode path map i value) kind ids 0
      ids path parent map

mutual

/-- `map_value` (crates/toml/src/map.rs:609-650). -/
def mapValue : Value → List Seg → Nat → MapM MapNode
  | .string s, _, _ => pure (.scalar (.string s))
  | .int l s n, _, _ => pure (.scalar (.int l s n))
  | .float l s f, _, _ => pure (.scalar (.float l s f))
  | .bool s b, _, _ => pure (.scalar (.bool s b))
  | .dateTime l s d, _, _ => pure (.scalar (.dateTime l s d))
  | .inlineTable ⟨_, as, _⟩, path, parent => do
    let t ← mapAssignments as path parent []
    pure (.table t)
  | .inlineArray ⟨c, l, vs, e⟩, path, parent => do
    let es ← mapElements vs 0 path parent
    pure (.inline parent ⟨c, l, vs, e⟩ es)
  | .invalid l s, _, _ => pure (.scalar (.invalid l s))

/-- The loop over the elements of an array (crates/toml/src/map.rs:640-644). -/
def mapElements : List InlineArrayValue → Nat → List Seg → Nat → MapM (List InlineEntry)
  | [], _, _, _ => pure []
  | ⟨c, v, m⟩ :: vs, i, path, parent => do
    let n ← mapValue v (.array i :: path) parent
    let es ← mapElements vs (i + 1) path parent
    pure (⟨n, ⟨c, v, m⟩⟩ :: es)

/-- The loop over the assignments of an inline table (crates/toml/src/map.rs:623-636). -/
def mapAssignments : List InlineTableAssignment → List Seg → Nat → MapTable → MapM MapTable
  | [], _, _, map => pure map
  | ⟨⟨k, q, v⟩, m⟩ :: as, path, parent, map => do
    let map ← insertNodeAtPath path parent map k (.value fun path parent => mapValue v path parent)
      (.inlineTableAssignment ⟨⟨k, q, v⟩, m⟩)
    mapAssignments as path parent map

end

/-- `insert_top_level_assignments` (crates/toml/src/map.rs:981-1002). -/
def insertTopLevelAssignments (as : List ToplevelAssignment) (path : List Seg) (parent : Nat)
    (map : MapTable) : MapM MapTable :=
  match as with
  | [] => pure map
  | a :: as => do
    let map ← insertNodeAtPath path parent map a.assignment.key (.value (mapValue a.assignment.val))
      (.toplevelAssignment a)
    insertTopLevelAssignments as path parent map

/-- The table of an entry of an array of tables (crates/toml/src/map.rs:859-868, 945-954 and
962-971). -/
def arrayTable (a : ArrayEntry) (path : List Seg) (parent : Nat) : MapM ArrayTable := do
  let t ← insertTopLevelAssignments a.assignments path parent []
  pure ⟨t, parent, a⟩

/-- The entry behind `Vacant` in `insert_array_entry` (crates/toml/src/map.rs:956-975), and at the end
of a new chain (crates/toml/src/map.rs:850-872). -/
def freshArray (a : ArrayEntry) (path : List Seg) (repr : Repr) : MapM Entry := do
  let e ← arrayTable a (.array 0 :: .table [repr] :: path) 0
  pure ⟨.toplevel [e], [repr]⟩

/-- `insert_array_entry` (crates/toml/src/map.rs:908-979); its error is reported by each caller. -/
def insertArrayEntry (a : ArrayEntry) (path : List Seg) (map : MapTable) (key : Ident) (repr : Repr) :
    MapM MapTable :=
  match get map key.text with
  | none => do
    let e ← freshArray a path repr
    pure (put map key.text e)
  | some entry =>
    match entry.node with
    | .toplevel es => do
      let parent := entry.reprs.length
      let reprs := entry.reprs ++ [repr]
      let e ← arrayTable a (.array es.length :: .table reprs :: path) parent
      pure (put map key.text ⟨.toplevel (es ++ [e]), reprs⟩)
    | .inline _ _ _ => do
      let orig ← lift entry.reprs.head?
      let e ← lift (extendError .cannotExtendInlineArray path orig repr)
      report e
      pure map
    | _ => do
      let orig ← lift entry.reprs.head?
      let e ← lift (duplicateKeyError path orig repr)
      report e
      pure map

/-- `insert_array_entry_at_path` (crates/toml/src/map.rs:802-906). -/
def insertArrayEntryAtPath (a : ArrayEntry) (map : MapTable) (key : Key) : MapM MapTable :=
  match key with
  | .one i => insertArrayEntry a [] map i ⟨ROOT_PARENT, .one i, .arrayEntry a⟩
  | .dotted ids =>
    walk (freshArray a) (insertArrayEntry a) (.arrayEntry a) ids 0 ids [] ROOT_PARENT map

/-- One step of the loop of `map` (crates/toml/src/map.rs:547-588). -/
def mapAst (root : MapTable) : Ast → MapM MapTable
  | .assignment a =>
    insertNodeAtPath [] ROOT_PARENT root a.assignment.key (.value (mapValue a.assignment.val))
      (.toplevelAssignment a)
  | .table t =>
    match t.header.key with
    | none => pure root
    | some key =>
      insertNodeAtPath [] ROOT_PARENT root key
        (.tableAssignments (insertTopLevelAssignments t.assignments)) (.table t)
  | .array a =>
    match a.header.key with
    | none => pure root
    | some key => insertArrayEntryAtPath a root key
  | .comment _ => pure root

/-- The loop of `map` (crates/toml/src/map.rs:547-588). -/
def mapAsts : List Ast → MapTable → MapM MapTable
  | [], root => pure root
  | a :: as, root => do
    let root ← mapAst root a
    mapAsts as root

/-- `map` (crates/toml/src/map.rs:544-590). -/
def map (asts : List Ast) : MapM MapTable := mapAsts asts []

end Verif.TomlMap
