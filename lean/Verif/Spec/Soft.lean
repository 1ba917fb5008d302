import Verif.Spec.Damage

/-!
# Specification: arrays and inline tables with damaged entries

The values of `Spec/Grammar.lean`, where entries of arrays and of inline tables may be damaged and commas may be missing.
A value is given by a pattern, which leaves open what the damaged entries say, and by the places of the faults.
-/

namespace Verif.Spec.Toml
open Verif Verif.Toml

/-! ## What is left open -/

/-- A value with damaged entries (`none`). -/
inductive Pat
  | exact (v : TVal)
  | array (ps : List (Option Pat))
  | table (ps : List (Option (List Str × Pat)))

mutual

/-- The value `v` is as the pattern says. -/
inductive Fits : Pat → TVal → Prop
  | exact {v} : Fits (.exact v) v
  | array {ps vs} : FitsArray ps vs → Fits (.array ps) (.array vs)
  | table {ps kvs} : FitsTable ps kvs → Fits (.table ps) (.table kvs)

/-- The elements that are not damaged are there, in their order; there may be any for the damaged ones. -/
inductive FitsArray : List (Option Pat) → List TVal → Prop
  | nil : FitsArray [] []
  | right {p v ps vs} : Fits p v → FitsArray ps vs → FitsArray (some p :: ps) (v :: vs)
  | damaged {ws ps vs} : FitsArray ps vs → FitsArray (none :: ps) (ws ++ vs)

/-- The assignments that are not damaged are there, in their order; there may be any for the damaged ones. -/
inductive FitsTable : List (Option (List Str × Pat)) → List (List Str × TVal) → Prop
  | nil : FitsTable [] []
  | right {k p v ps kvs} : Fits p v → FitsTable ps kvs → FitsTable (some (k, p) :: ps) ((k, v) :: kvs)
  | damaged {ws ps kvs} : FitsTable ps kvs → FitsTable (none :: ps) (ws ++ kvs)

end

/-! ## Damaged entries -/

/-- Line breaks and comments. -/
def isGap : View → Bool
  | .newline => true
  | .comment _ => true
  | _ => false

/-- A token that is not a comma or a bracket, and not a string that is not closed. -/
def isJunk : View → Bool
  | .punct c => c = '.' || c = '='
  | _ => true

/-- The place of the first token other than line breaks and comments; `p` if there is none. -/
def firstAt : List Tok → Pos → Pos
  | [], p => p
  | t :: ts, p => if isGap t.1 then firstAt ts p else t.2

/-- What follows begins with an entry, not with a comma or a closing bracket, at the place `q`. -/
def NextAt (rest : List Tok) (q : Pos) : Prop :=
  ∃ g v r, rest = g ++ (v, q) :: r ∧ Gap g ∧ isGap v = false ∧ v ≠ .punct ',' ∧ v ≠ .punct ']' ∧ v ≠ .punct '}'

/-- The value `ts` ends in front of `rest`: it ends with a quote or a bracket, there is a line break or a comment, or it is a bare
literal other than a date, and what follows does not touch it. -/
def Apart (ts rest : List Tok) : Prop :=
  (∃ a v p, ts = a ++ [(v, p)] ∧ ((∃ q lit txt, v = .string q lit txt) ∨ v = .punct ']' ∨ v = .punct '}')) ∨
    (∃ t r, rest = t :: r ∧ isGap t.1 = true) ∨
    ∃ p x v, Bare p ts x ∧ Scalar x v ∧ (∀ d, v ≠ .dateTime d) ∧ ∀ t r, rest = t :: r → t.2 ≠ p.plus (blen x)

/-- A part of the text with a fault, from a place to a place. -/
abbrev Fault := Pos × Pos

mutual

/-- `Soft n ts p fs`: a value as in `Val`, with faults `fs` in its arrays and inline tables. -/
inductive Soft : Nat → List Tok → Pat → List Fault → Prop
  | scalar {n ts v} : Val 0 ts v → Soft n ts (.exact v) []
  | array {n p ts ps fs} : SoftArray n ts ps fs → Soft (n + 1) ((.punct '[', p) :: ts) (.array ps) fs
  | table {n p ts ps fs} : SoftTable n ts ps fs → Soft (n + 1) ((.punct '{', p) :: ts) (.table ps) fs

/-- What follows `[`. -/
inductive SoftArray : Nat → List Tok → List (Option Pat) → List Fault → Prop
  | close {n g p} : Gap g → SoftArray n (g ++ [(.punct ']', p)]) [] []
  | last {n g ts g' p P fs} : Gap g → Soft n ts P fs → Gap g' →
      SoftArray n (g ++ ts ++ g' ++ [(.punct ']', p)]) [some P] fs
  | more {n g ts g' p P fs rest ps fs'} : Gap g → Soft n ts P fs → Gap g' → SoftArray n rest ps fs' →
      SoftArray n (g ++ ts ++ g' ++ (.punct ',', p) :: rest) (some P :: ps) (fs ++ fs')
  /-- There is no comma behind the value. -/
  | missing {n g ts P fs rest ps fs' q} : Gap g → Soft n ts P fs → SoftArray n rest ps fs' → NextAt rest q →
      Apart ts rest → SoftArray n (g ++ ts ++ rest) (some P :: ps) (fs ++ (firstAt ts q, q) :: fs')
  | damagedLast {n j p} : (∀ t ∈ j, isJunk t.1 = true) → SoftArray n (j ++ [(.punct ']', p)]) [none] [(firstAt j p, p)]
  | damaged {n j p rest ps fs} : (∀ t ∈ j, isJunk t.1 = true) → SoftArray n rest ps fs →
      SoftArray n (j ++ (.punct ',', p) :: rest) (none :: ps) ((firstAt j p, p) :: fs)

/-- What follows `{`. -/
inductive SoftTable : Nat → List Tok → List (Option (List Str × Pat)) → List Fault → Prop
  | close {n p} : SoftTable n [(.punct '}', p)] [] []
  | last {n kt k q ts P fs p} : KeyToks kt k → Soft n ts P fs →
      SoftTable n (kt ++ (.punct '=', q) :: (ts ++ [(.punct '}', p)])) [some (k, P)] fs
  | more {n kt k q ts P fs p rest x ps fs'} : KeyToks kt k → Soft n ts P fs → SoftTable n rest (x :: ps) fs' →
      SoftTable n (kt ++ (.punct '=', q) :: (ts ++ (.punct ',', p) :: rest)) (some (k, P) :: x :: ps) (fs ++ fs')
  /-- There is a comma behind the last assignment. -/
  | trailing {n kt k q ts P fs p p'} : KeyToks kt k → Soft n ts P fs →
      SoftTable n (kt ++ (.punct '=', q) :: (ts ++ [(.punct ',', p), (.punct '}', p')])) [some (k, P)] (fs ++ [(p, p)])
  /-- There is no comma behind the assignment. -/
  | missing {n kt k q ts P fs rest ps fs' q'} : KeyToks kt k → Soft n ts P fs → SoftTable n rest ps fs' → NextAt rest q' →
      Apart ts rest →
      SoftTable n (kt ++ (.punct '=', q) :: (ts ++ rest)) (some (k, P) :: ps) (fs ++ (firstAt kt q, q') :: fs')
  | damagedLast {n j p} : j ≠ [] → (∀ t ∈ j, isJunk t.1 = true ∧ isGap t.1 = false) →
      SoftTable n (j ++ [(.punct '}', p)]) [none] [(firstAt j p, p)]
  | damaged {n j p rest x ps fs} : (∀ t ∈ j, isJunk t.1 = true ∧ isGap t.1 = false) → SoftTable n rest (x :: ps) fs →
      SoftTable n (j ++ (.punct ',', p) :: rest) (none :: x :: ps) ((firstAt j p, p) :: fs)

end

/-! ## Documents -/

/-- An item with damaged entries. -/
inductive ItemPat
  | item (i : Item)
  | keyVal (k : List Str) (p : Pat)

/-- The item is as the pattern says. -/
inductive FitsItem : ItemPat → Item → Prop
  | item {i} : FitsItem (.item i) i
  | keyVal {k p v} : Fits p v → FitsItem (.keyVal k p) (.keyVal k v)

/-- A line as in the grammar, except for damaged entries in its value. -/
inductive SoftLine : List Tok → List ItemPat → List Fault → Prop
  | right {ts is} : Line true ts is → SoftLine ts (is.map .item) []
  | keyVal {kt k p ts P fs} : KeyToks kt k → Soft 99 ts P fs → SoftLine (kt ++ (.punct '=', p) :: ts) [.keyVal k P] fs
  | comment {kt k p ts P fs x q} : KeyToks kt k → Soft 99 ts P fs →
      SoftLine (kt ++ (.punct '=', p) :: ts ++ [(.comment x, q)]) [.keyVal k P] fs

/-- `SoftDoc pre text ps fs`: as `Damaged`, where the parts that are not damaged altogether may have damaged entries. -/
inductive SoftDoc : Str → Str → List (List ItemPat ⊕ Nat) → List Fault → Prop
  | softEnd {pre t ts is fs} : Tokenized pre t ts → SoftLine ts is fs → SoftDoc pre t [.inl is] fs
  | damagedEnd {pre t} : AnyLine t → SoftDoc pre t [.inr (posOf pre).line] []
  | soft {pre t ts p is fs text ps fs'} : Tokenized pre (t ++ ['\n']) (ts ++ [(.newline, p)]) → SoftLine ts is fs →
      SoftDoc (pre ++ t ++ ['\n']) text ps fs' → SoftDoc pre (t ++ '\n' :: text) (.inl is :: ps) (fs ++ fs')
  | damaged {pre t text ps fs} : AnyLine t → SoftDoc (pre ++ t ++ ['\n']) text ps fs →
      SoftDoc pre (t ++ '\n' :: text) (.inr (posOf pre).line :: ps) fs

/-- One item for each pattern. -/
inductive FitsItems : List ItemPat → List Item → Prop
  | nil : FitsItems [] []
  | cons {p i ps is} : FitsItem p i → FitsItems ps is → FitsItems (p :: ps) (i :: is)

/-- The items of the parts are there, in their order; there may be any for the damaged lines. -/
inductive FitsDoc : List (List ItemPat ⊕ Nat) → List Item → Prop
  | nil : FitsDoc [] []
  | soft {qs is ps rest} : FitsItems qs is → FitsDoc ps rest → FitsDoc (.inl qs :: ps) (is ++ rest)
  | damaged {ℓ ps is rest} : FitsDoc ps rest → FitsDoc (.inr ℓ :: ps) (is ++ rest)

/-- A place in a damaged line, or in one of the faults. -/
def FaultAt (ps : List (List ItemPat ⊕ Nat)) (fs : List Fault) (p : Pos) : Prop :=
  .inr p.line ∈ ps ∨ ∃ f ∈ fs, Pos.le f.1 p ∧ Pos.le p f.2

end Verif.Spec.Toml
