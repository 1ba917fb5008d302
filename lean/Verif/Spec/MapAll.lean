import Verif.Spec.MapGrow

/-!
# Specification: every part of a document is in the map or is reported
-/

namespace Verif.Spec.Toml
open Verif Verif.Toml Verif.TomlMap

mutual

/-- The assignments in the inline tables inside of a value, in the order of the text. -/
def valParts : Value → List ReprKind
  | .inlineTable ⟨_, as, _⟩ => pairParts as
  | .inlineArray ⟨_, _, vs, _⟩ => elemParts vs
  | _ => []

def elemParts : List InlineArrayValue → List ReprKind
  | [] => []
  | ⟨_, v, _⟩ :: vs => valParts v ++ elemParts vs

def pairParts : List InlineTableAssignment → List ReprKind
  | [] => []
  | ⟨⟨k, q, v⟩, m⟩ :: as => .inlineTableAssignment ⟨⟨k, q, v⟩, m⟩ :: valParts v ++ pairParts as

end

/-- An assignment and those inside of its value. -/
def lineParts (a : ToplevelAssignment) : List ReprKind := .toplevelAssignment a :: valParts a.assignment.val

/-- A part of a document, and the parts inside of it. -/
def kindParts : ReprKind → List ReprKind
  | .table t => .table t :: t.assignments.flatMap lineParts
  | .arrayEntry t => .arrayEntry t :: t.assignments.flatMap lineParts
  | .toplevelAssignment a => lineParts a
  | .inlineTableAssignment a => .inlineTableAssignment a :: valParts a.assignment.val

/-- The parts of an item of a document; a header without a name has none. -/
def astParts : Ast → List ReprKind
  | .assignment a => kindParts (.toplevelAssignment a)
  | .table t => if t.header.key.isSome then kindParts (.table t) else []
  | .array t => if t.header.key.isSome then kindParts (.arrayEntry t) else []
  | .comment _ => []

/-- The parts of a document: its headers and assignments, in the order of the text. -/
def docParts (asts : List Ast) : List ReprKind := asts.flatMap astParts

/-- The part is in the map: an entry has it as a representation, with the last name of its key. -/
def Stored (t : MapTable) (k : ReprKind) : Prop :=
  ∃ p n rs r, entryAt (.table t) [] p = some (n, rs) ∧ r ∈ rs ∧ r.kind = k ∧ IsLast r

/-- The place of the name that is rejected by a diagnostic of the map. -/
def rejectedAt : Error → Option Span
  | .duplicateKey _ _ _ s => some s
  | .cannotExtendTableWithDottedKey _ _ _ s => some s
  | .cannotExtendInlineTable _ _ _ s => some s
  | .cannotExtendArrayWithDottedKey _ _ _ s => some s
  | .cannotExtendInlineArray _ _ _ s => some s
  | .cannotExtendInlineArrayAsTable _ _ _ s => some s
  | _ => none

/-- The diagnostic is about this part: it marks a name of its key. -/
def Rejects (e : Error) (k : ReprKind) : Prop :=
  ∃ key i, kindKey k = some key ∧ i ∈ key.idents ∧ rejectedAt e = some i.litSpan

/-- `Matches es ks`: the diagnostics are about these parts, one for each, in this order. -/
inductive Matches : List Error → List ReprKind → Prop
  | nil : Matches [] []
  | cons {e k es ks} : Rejects e k → Matches es ks → Matches (e :: es) (k :: ks)

/-- Some of the parts of a document are rejected, each with one diagnostic, in the order of the text; all other parts are in the map, apart from those inside
of the rejected ones. -/
def Accounted (stored : ReprKind → Prop) (parts : List ReprKind) (es : List Error) : Prop :=
  ∃ ks, ks.Sublist parts ∧ Matches es ks ∧ ∀ k ∈ parts, stored k ∨ ∃ k' ∈ ks, k ∈ kindParts k'

end Verif.Spec.Toml
