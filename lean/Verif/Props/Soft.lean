import Verif.Toml.SoftTop
import Verif.Props.Damage
import Verif.Props.Lex

/-! # Property C92: a damaged entry of an array or of an inline table does not affect the others

Values with damaged entries and missing commas are in `Spec/Soft.lean`. -/

namespace Verif.Props
open Verif Verif.Toml Verif.Spec.Toml

variable {input : Str} {ps : List (List ItemPat ⊕ Nat)} {fs : List Fault}

/-- C92: for a document in which entries of arrays and inline tables are damaged, commas are missing and lines are damaged,
the tree has all other entries and items, in their order, and every diagnostic begins in a fault or a damaged line. -/
theorem C92_entries (h : SoftDoc [] input ps fs) (ovf : Bool) :
    ∃ a s, parseDocument ovf input = .ok a s ∧ FitsDoc ps (a.asts.flatMap astItems) ∧
      ∀ e ∈ s.errors, FaultAt ps fs e.span.start := parse_soft h ovf

/-- C92: in particular such a document does not make the parser panic. -/
theorem C92_no_panic (h : SoftDoc [] input ps fs) (ovf : Bool) : parseDocument ovf input ≠ .panic := by
  obtain ⟨a, s, h, -⟩ := parse_soft h ovf
  rw [h]
  intro hh
  cases hh

/-! ## The documents of C86 are among them -/

/-- A part without faults. -/
def asPart : List Item ⊕ Nat → List ItemPat ⊕ Nat
  | .inl is => .inl (is.map .item)
  | .inr ℓ => .inr ℓ

/-- The documents with damaged lines only. -/
theorem soft_of_damaged {pre text : Str} {ps : List (List Item ⊕ Nat)} (h : Damaged pre text ps) :
    SoftDoc pre text (ps.map asPart) [] := by
  induction h with
  | rightEnd h1 h2 => exact .softEnd h1 (.right h2)
  | damagedEnd h => exact .damagedEnd h
  | right h1 h2 _ ih => exact .soft h1 (.right h2) ih
  | damaged h _ ih => exact .damaged h ih

theorem fitsItems_exact {is is' : List Item} (h : FitsItems (is.map .item) is') : is' = is := by
  induction is generalizing is' with
  | nil => cases h; rfl
  | cons i is ih =>
    cases h with
    | cons h1 h2 =>
      cases h1
      rw [ih h2]

theorem filled_of_fits {ps : List (List Item ⊕ Nat)} : ∀ {is : List Item}, FitsDoc (ps.map asPart) is → Filled ps is := by
  induction ps with
  | nil => intro is h; cases h; exact .nil
  | cons p ps ih =>
    intro is h
    cases p with
    | inl qs =>
      cases h with
      | soft h1 h2 =>
        rw [fitsItems_exact h1]
        exact .right (ih h2)
    | inr ℓ =>
      cases h with
      | damaged h => exact .damaged (ih h)

/-- C92 says no less than C86. -/
theorem C92_lines {ps : List (List Item ⊕ Nat)} (h : Damaged [] input ps) (ovf : Bool) :
    ∃ a s, parseDocument ovf input = .ok a s ∧ Filled ps (a.asts.flatMap astItems) ∧
      ∀ e ∈ s.errors, .inr e.span.start.line ∈ ps := by
  obtain ⟨a, s, h1, h2, h3⟩ := C92_entries (soft_of_damaged h) ovf
  refine ⟨a, s, h1, filled_of_fits h2, ?_⟩
  intro e he
  rcases h3 e he with hh | ⟨f, hf, -⟩
  · obtain ⟨p, hp, hp'⟩ := List.mem_map.1 hh
    cases p with
    | inl _ => cases hp'
    | inr ℓ => cases hp'; exact hp
  · cases hf

/-! ## Right values are among the values with faults -/

/-- The pattern leaves nothing open. -/
def Pins (P : Pat) (v : TVal) : Prop := ∀ w, Fits P w ↔ w = v

theorem pins_exact (v : TVal) : Pins (.exact v) v := by
  intro w
  constructor
  · intro h; cases h; rfl
  · rintro rfl; exact .exact

theorem fitsArray_pins : ∀ {Pv : List (Pat × TVal)}, (∀ x ∈ Pv, Pins x.1 x.2) → ∀ ws,
    FitsArray (Pv.map fun x => some x.1) ws ↔ ws = Pv.map (·.2) := by
  intro Pv
  induction Pv with
  | nil =>
    intro _ ws
    constructor
    · intro h; cases h; rfl
    · rintro rfl; exact .nil
  | cons x Pv ih =>
    intro hp ws
    have ih := ih (fun y hy => hp y (by simp [hy]))
    constructor
    · intro h
      cases h with
      | right h1 h2 => rw [(hp x (by simp) _).1 h1, (ih _).1 h2]; rfl
    · rintro rfl
      exact .right ((hp x (by simp) _).2 rfl) ((ih _).2 rfl)

theorem fitsTable_pins : ∀ {Pv : List (List Str × Pat × TVal)}, (∀ x ∈ Pv, Pins x.2.1 x.2.2) → ∀ ws,
    FitsTable (Pv.map fun x => some (x.1, x.2.1)) ws ↔ ws = Pv.map fun x => (x.1, x.2.2) := by
  intro Pv
  induction Pv with
  | nil =>
    intro _ ws
    constructor
    · intro h; cases h; rfl
    · rintro rfl; exact .nil
  | cons x Pv ih =>
    intro hp ws
    have ih := ih (fun y hy => hp y (by simp [hy]))
    constructor
    · intro h
      cases h with
      | right h1 h2 => rw [(hp x (by simp) _).1 h1, (ih _).1 h2]; rfl
    · rintro rfl
      exact .right ((hp x (by simp) _).2 rfl) ((ih _).2 rfl)

theorem softArray_of {n : Nat} {es : List Elem} {ts : List Tok} (hb : ArrayBody es ts) :
    (∀ e ∈ es, Gap e.before ∧ Gap e.after) → (∀ e ∈ es, ∃ P, Soft n e.toks P [] ∧ Pins P e.val) →
    ∃ Pv : List (Pat × TVal), SoftArray n ts (Pv.map fun x => some x.1) [] ∧ Pv.map (·.2) = es.map (·.val) ∧
      ∀ x ∈ Pv, Pins x.1 x.2 := by
  induction hb with
  | close hg => intro _ _; exact ⟨[], .close hg, rfl, by simp⟩
  | @last e p =>
    intro hg hs
    obtain ⟨P, h1, h2⟩ := hs e (by simp)
    obtain ⟨g1, g2⟩ := hg e (by simp)
    exact ⟨[(P, e.val)], .last g1 h1 g2, rfl, by simpa using h2⟩
  | @more e es ts p _ ih =>
    intro hg hs
    obtain ⟨P, h1, h2⟩ := hs e (by simp)
    obtain ⟨g1, g2⟩ := hg e (by simp)
    obtain ⟨Pv, k1, k2, k3⟩ := ih (fun e' he => hg e' (by simp [he])) (fun e' he => hs e' (by simp [he]))
    refine ⟨(P, e.val) :: Pv, by simpa using SoftArray.more (p := p) g1 h1 g2 k1, by simp [k2], ?_⟩
    intro x hx
    rcases List.mem_cons.1 hx with rfl | hx
    · exact h2
    · exact k3 x hx

theorem softTable_of {n : Nat} {es : List Entry} {ts : List Tok} (hb : TableBody es ts) :
    (∀ e ∈ es, KeyToks e.key e.names) → (∀ e ∈ es, ∃ P, Soft n e.toks P [] ∧ Pins P e.val) →
    ∃ Pv : List (List Str × Pat × TVal), SoftTable n ts (Pv.map fun x => some (x.1, x.2.1)) [] ∧
      (Pv.map fun x => (x.1, x.2.2)) = (es.map fun e => (e.names, e.val)) ∧ ∀ x ∈ Pv, Pins x.2.1 x.2.2 := by
  induction hb with
  | close => intro _ _; exact ⟨[], .close, rfl, by simp⟩
  | @last e p =>
    intro hk hs
    obtain ⟨P, h1, h2⟩ := hs e (by simp)
    exact ⟨[(e.names, P, e.val)], by simpa [Entry.all] using SoftTable.last (q := e.eq) (p := p) (hk e (by simp)) h1, rfl, by simpa using h2⟩
  | @more e e' es ts p _ ih =>
    intro hk hs
    obtain ⟨P, h1, h2⟩ := hs e (by simp)
    obtain ⟨Pv, k1, k2, k3⟩ := ih (fun e' he => hk e' (by simp [he])) (fun e' he => hs e' (by simp [he]))
    refine ⟨(e.names, P, e.val) :: Pv, ?_, by simp [k2], ?_⟩
    · cases Pv with
      | nil => simp at k2
      | cons x Pv =>
        simpa [Entry.all] using SoftTable.more (q := e.eq) (p := p) (hk e (by simp)) h1 k1
    · intro x hx
      rcases List.mem_cons.1 hx with rfl | hx
      · exact h2
      · exact k3 x hx

/-- The values of the grammar are values without faults. -/
theorem soft_of_val {n : Nat} {ts : List Tok} {v : TVal} (h : Val n ts v) : ∃ P, Soft n ts P [] ∧ Pins P v := by
  induction h with
  | string => exact ⟨_, .scalar .string, pins_exact _⟩
  | bare h1 h2 => exact ⟨_, .scalar (.bare h1 h2), pins_exact _⟩
  | spaced h1 h2 h3 h4 => exact ⟨_, .scalar (.spaced h1 h2 h3 h4), pins_exact _⟩
  | @array n p es ts hg _ hb ih =>
    obtain ⟨Pv, k1, k2, k3⟩ := softArray_of hb hg ih
    refine ⟨_, .array k1, ?_⟩
    intro w
    constructor
    · intro h
      cases h with
      | array h => rw [(fitsArray_pins k3 _).1 h, k2]
    · rintro rfl
      exact .array ((fitsArray_pins k3 _).2 k2.symm)
  | @table n p es ts hk _ hb ih =>
    obtain ⟨Pv, k1, k2, k3⟩ := softTable_of hb hk ih
    refine ⟨_, .table k1, ?_⟩
    intro w
    constructor
    · intro h
      cases h with
      | table h => rw [(fitsTable_pins k3 _).1 h, k2]
    · rintro rfl
      exact .table ((fitsTable_pins k3 _).2 k2.symm)

/-! ## Example -/

/-- A comma is missing behind the first element, the third element is damaged; in the inline table a comma is missing, too, and
the third assignment is damaged. -/
def softToml : Str := "a = [1 2, = x, {b = 3 c = 4, d, e = 5}, 6]".toList

/-- The tokens of the value. -/
def softToks : List Tok :=
  (.punct '[', ⟨0, 4⟩) :: ([] ++ [(.word ['1'], ⟨0, 5⟩)] ++ ([] ++ [(.word ['2'], ⟨0, 7⟩)] ++ [] ++ (.punct ',', ⟨0, 8⟩) ::
    ([(.punct '=', ⟨0, 10⟩), (.word ['x'], ⟨0, 12⟩)] ++ (.punct ',', ⟨0, 13⟩) :: ([] ++
      ((.punct '{', ⟨0, 15⟩) :: ([(.word ['b'], ⟨0, 16⟩)] ++ (.punct '=', ⟨0, 18⟩) :: ([(.word ['3'], ⟨0, 20⟩)] ++
        ([(.word ['c'], ⟨0, 22⟩)] ++ (.punct '=', ⟨0, 24⟩) :: ([(.word ['4'], ⟨0, 26⟩)] ++ (.punct ',', ⟨0, 27⟩) ::
        ([(.word ['d'], ⟨0, 29⟩)] ++ (.punct ',', ⟨0, 30⟩) ::
          ([(.word ['e'], ⟨0, 32⟩)] ++ (.punct '=', ⟨0, 34⟩) :: ([(.word ['5'], ⟨0, 36⟩)] ++ [(.punct '}', ⟨0, 37⟩)]))))))))
      ++ [] ++ (.punct ',', ⟨0, 38⟩) :: ([] ++ [(.word ['6'], ⟨0, 40⟩)] ++ [] ++ [(.punct ']', ⟨0, 41⟩)])))))

/-- What the value is to be. -/
def softPat : Pat :=
  .array [some (.exact (.int 1)), some (.exact (.int 2)), none,
    some (.table [some ([['b']], .exact (.int 3)), some ([['c']], .exact (.int 4)), none, some ([['e']], .exact (.int 5))]),
    some (.exact (.int 6))]

/-- Where the faults are. -/
def softFaults : List Fault := [(⟨0, 5⟩, ⟨0, 7⟩), (⟨0, 10⟩, ⟨0, 13⟩), (⟨0, 16⟩, ⟨0, 22⟩), (⟨0, 29⟩, ⟨0, 30⟩)]

theorem digit_bare (c : Char) (p : Pos) : Bare p [(.word [c], p)] [c] := ⟨[c], [], [], rfl, rfl, .nil⟩

theorem digit_scalar : Scalar ['1'] (.int 1) ∧ Scalar ['2'] (.int 2) ∧ Scalar ['3'] (.int 3) ∧ Scalar ['4'] (.int 4) ∧
    Scalar ['5'] (.int 5) ∧ Scalar ['6'] (.int 6) := by
  refine ⟨?_, ?_, ?_, ?_, ?_, ?_⟩
  · exact .int ⟨[], 1, ['1'], rfl, .none, ⟨.one (by decide), .inr (by decide)⟩, by decide⟩ (by unfold InRange; omega)
  · exact .int ⟨[], 1, ['2'], rfl, .none, ⟨.one (by decide), .inr (by decide)⟩, by decide⟩ (by unfold InRange; omega)
  · exact .int ⟨[], 1, ['3'], rfl, .none, ⟨.one (by decide), .inr (by decide)⟩, by decide⟩ (by unfold InRange; omega)
  · exact .int ⟨[], 1, ['4'], rfl, .none, ⟨.one (by decide), .inr (by decide)⟩, by decide⟩ (by unfold InRange; omega)
  · exact .int ⟨[], 1, ['5'], rfl, .none, ⟨.one (by decide), .inr (by decide)⟩, by decide⟩ (by unfold InRange; omega)
  · exact .int ⟨[], 1, ['6'], rfl, .none, ⟨.one (by decide), .inr (by decide)⟩, by decide⟩ (by unfold InRange; omega)

theorem digit_soft {n : Nat} {c : Char} {k : Int} (h : Scalar [c] (.int k)) (p : Pos) :
    Soft n [(.word [c], p)] (.exact (.int k)) [] := .scalar (.bare (digit_bare c p) h)

theorem one_key (c : Char) (p : Pos) (h : BareChar c) : KeyToks [(.word [c], p)] [[c]] := by
  refine .one (.bare ?_)
  intro c' hc
  rw [List.mem_singleton.1 hc]
  exact h

theorem softToks_soft : Soft 99 softToks softPat softFaults := by
  obtain ⟨d1, d2, d3, d4, d5, d6⟩ := digit_scalar
  have g0 : Gap [] := by intro t ht; cases ht
  have bc : ∀ c ∈ ['b', 'c', 'd', 'e'], BareChar c := by unfold BareChar; decide
  refine .array (fs := [] ++ (⟨0, 5⟩, ⟨0, 7⟩) :: ([] ++ (⟨0, 10⟩, ⟨0, 13⟩) :: ([(⟨0, 16⟩, ⟨0, 22⟩), (⟨0, 29⟩, ⟨0, 30⟩)] ++ [])))
    (.missing (q := ⟨0, 7⟩) g0 (digit_soft d1 _) (.more g0 (digit_soft d2 _) g0 (.damaged (j := [(.punct '=', ⟨0, 10⟩), (.word ['x'], ⟨0, 12⟩)]) (by decide) (.more g0 ?_ g0
      (.last g0 (digit_soft d6 _) g0)))) ?_ ?_)
  · refine .table (fs := [] ++ (⟨0, 16⟩, ⟨0, 22⟩) :: ([] ++ [(⟨0, 29⟩, ⟨0, 30⟩)]))
      (.missing (q' := ⟨0, 22⟩) (one_key 'b' _ (bc 'b' (by decide))) (digit_soft d3 _)
      (.more (one_key 'c' _ (bc 'c' (by decide))) (digit_soft d4 _) (.damaged (j := [(.word ['d'], ⟨0, 29⟩)]) (by decide)
      (.last (one_key 'e' _ (bc 'e' (by decide))) (digit_soft d5 _)))) ?_ ?_)
    · exact ⟨[], _, _, rfl, g0, rfl, by simp, by simp, by simp⟩
    · exact .inr (.inr ⟨_, _, _, digit_bare _ _, d3, by simp, by intro t r h; cases h; decide⟩)
  · exact ⟨[], _, _, rfl, g0, rfl, by simp, by simp, by simp⟩
  · exact .inr (.inr ⟨_, _, _, digit_bare _ _, d1, by simp, by intro t r h; cases h; decide⟩)

set_option maxRecDepth 100000 in
theorem softToml_lex : (lex softToml).map (fun r => (r.2, r.1.tokens.map (resolve r.1.strings r.1.literals))) =
    some ([], (([(.word ['a'], ⟨0, 0⟩)] ++ (.punct '=', ⟨0, 2⟩) :: softToks : List Tok)).map some) := by decide +kernel

/-- The example meets the hypothesis of the theorems. -/
theorem softToml_soft : SoftDoc [] softToml [.inl [.keyVal [['a']] softPat]] softFaults := by
  refine .softEnd (ts := [(.word ['a'], ⟨0, 0⟩)] ++ (.punct '=', ⟨0, 2⟩) :: softToks) ?_
    (.keyVal (one_key 'a' ⟨0, 0⟩ (by unfold BareChar; decide)) softToks_soft)
  have h := softToml_lex
  cases hl : lex softToml with
  | none => rw [hl] at h; cases h
  | some r =>
    rw [hl] at h
    obtain ⟨r1, r2⟩ := r
    simp only [Option.map_some, Option.some.injEq, Prod.mk.injEq] at h
    obtain ⟨rfl, h⟩ := h
    exact (C33_tokens hl _).2 h

/-- The places of the diagnostics, and the number of items. -/
def softPlaces : Run Asts → List Pos × Nat
  | .ok a s => (s.errors.map fun e => e.span.start, (a.asts.flatMap astItems).length)
  | _ => ([], 0)

/-- What the parser makes of the example: a diagnostic for each fault. -/
example : softPlaces (parseDocument true softToml) = ([⟨0, 6⟩, ⟨0, 10⟩, ⟨0, 21⟩, ⟨0, 30⟩], 1) := by decide +kernel

/-- ... and what `C92_entries` says about it. -/
example : ∃ a s, parseDocument true softToml = .ok a s ∧
    ∀ e ∈ s.errors, FaultAt [.inl [.keyVal [['a']] softPat]] softFaults e.span.start := by
  obtain ⟨a, s, h, -, he⟩ := C92_entries softToml_soft true
  exact ⟨a, s, h, he⟩

end Verif.Props
