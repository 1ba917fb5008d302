import Verif.Semver.ReqLemmas

/-! # Helper lemmas: `parse_requirement` refines the specification `ReqText` -/

namespace Verif.Semver
open Verif Verif.Spec Verif.Spec.Semver

/-- The operator before wildcards are taken into account. -/
def rawOp (op : Op) : Op := if op = .wl then .bl else op

theorem wlOf_some {b : Char} {w : WlChar} (h : wlOf b = some w) : b = w.char := by
  unfold wlOf at h
  split at h
  · cases h; assumption
  · split at h
    · cases h; assumption
    · split at h
      · cases h; assumption
      · cases h

theorem wlOf_char (w : WlChar) : wlOf w.char = some w := by cases w <;> decide

theorem wlOf_none {b : Char} (h : isWl b = false) : wlOf b = none := by
  simp [isWl] at h
  simp [wlOf, h]

theorem parseOp_sound (b : Char) (cs : Str) (c c' : Cur) (op : Op) (hc : c.rest = b :: cs)
    (h : parseOp b cs c = some (op, c')) :
    c.rest = opWritten op ++ c'.rest ∧ c'.start = c.start ∧
      c'.idx = c.idx + (opWritten op).length ∧ op ≠ .wl ∧ (op = .bl → isDigit b = true) := by
  unfold parseOp at h
  split at h
  · rename_i hd
    cases h; exact ⟨rfl, rfl, rfl, by simp, fun _ => hd⟩
  split at h
  · rename_i hb; subst hb; cases h; exact ⟨hc, rfl, rfl, by simp, by simp⟩
  split at h
  · rename_i hb; subst hb
    cases he : eatChar '=' (c.step cs) with
    | mk t c2 =>
      rw [he] at h
      cases t with
      | true =>
        cases h
        rw [eatChar_true_iff] at he
        refine ⟨?_, he.2.1, ?_, by simp, by simp⟩
        · rw [hc]; have := he.1; simp [Cur.step] at this; simp [opWritten, this]
        · rw [he.2.2]; rfl
      | false =>
        cases h
        rw [eatChar_false_iff] at he
        obtain ⟨rfl, -⟩ := he
        exact ⟨hc, rfl, rfl, by simp, by simp⟩
  split at h
  · rename_i hb; subst hb
    cases he : eatChar '=' (c.step cs) with
    | mk t c2 =>
      rw [he] at h
      cases t with
      | true =>
        cases h
        rw [eatChar_true_iff] at he
        refine ⟨?_, he.2.1, ?_, by simp, by simp⟩
        · rw [hc]; have := he.1; simp [Cur.step] at this; simp [opWritten, this]
        · rw [he.2.2]; rfl
      | false =>
        cases h
        rw [eatChar_false_iff] at he
        obtain ⟨rfl, -⟩ := he
        exact ⟨hc, rfl, rfl, by simp, by simp⟩
  split at h
  · rename_i hb; subst hb; cases h; exact ⟨hc, rfl, rfl, by simp, by simp⟩
  split at h
  · rename_i hb; subst hb; cases h; exact ⟨hc, rfl, rfl, by simp, by simp⟩
  · cases h

theorem parseOp_complete (op : Op) (st : Pos) (ix : Nat) (r : Str) (b : Char) (cs : Str)
    (hb : b :: cs = opWritten op ++ r) (h1 : startsWith (· == '=') r = false)
    (h2 : op = .wl ∨ op = .bl → startsWith isDigit r = true) :
    parseOp b cs ⟨st, ix, b :: cs⟩ = some (rawOp op, ⟨st, ix + (opWritten op).length, r⟩) := by
  have e1 : ∀ ix, eatChar '=' ⟨st, ix, r⟩ = (false, ⟨st, ix, r⟩) := fun ix => eatChar_not h1
  cases op <;> simp only [opWritten, List.cons_append, List.nil_append, List.cons.injEq] at hb
  case eq => obtain ⟨rfl, rfl⟩ := hb; rfl
  case lt =>
    obtain ⟨rfl, rfl⟩ := hb
    have : parseOp '<' cs ⟨st, ix, '<' :: cs⟩ = match eatChar '=' ⟨st, ix + 1, cs⟩ with
      | (true, c) => some (.le, c)
      | (false, c) => some (.lt, c) := rfl
    rw [this, e1]; rfl
  case le =>
    obtain ⟨rfl, rfl⟩ := hb
    have : parseOp '<' ('=' :: r) ⟨st, ix, '<' :: '=' :: r⟩ = match eatChar '=' ⟨st, ix + 1, '=' :: r⟩ with
      | (true, c) => some (.le, c)
      | (false, c) => some (.lt, c) := rfl
    rw [this, eatChar_at]; rfl
  case gt =>
    obtain ⟨rfl, rfl⟩ := hb
    have : parseOp '>' cs ⟨st, ix, '>' :: cs⟩ = match eatChar '=' ⟨st, ix + 1, cs⟩ with
      | (true, c) => some (.ge, c)
      | (false, c) => some (.gt, c) := rfl
    rw [this, e1]; rfl
  case ge =>
    obtain ⟨rfl, rfl⟩ := hb
    have : parseOp '>' ('=' :: r) ⟨st, ix, '>' :: '=' :: r⟩ = match eatChar '=' ⟨st, ix + 1, '=' :: r⟩ with
      | (true, c) => some (.ge, c)
      | (false, c) => some (.gt, c) := rfl
    rw [this, eatChar_at]; rfl
  case cr => obtain ⟨rfl, rfl⟩ := hb; rfl
  case tl => obtain ⟨rfl, rfl⟩ := hb; rfl
  case wl =>
    subst hb
    have := h2 (.inl rfl)
    rw [startsWith_cons] at this
    simp [parseOp, this, rawOp, opWritten]
  case bl =>
    subst hb
    have := h2 (.inr rfl)
    rw [startsWith_cons] at this
    simp [parseOp, this, rawOp, opWritten]

theorem cvText_ne_nil (cv : CompVersion) : cvText cv ≠ [] := by
  cases cv with
  | wl w => simp [cvText]
  | major a w => rcases w with _ | ⟨w, _ | w'⟩ <;> simp [cvText, decimal_ne_nil]
  | minor a b w => cases w <;> simp [cvText, decimal_ne_nil]
  | patch a b c m => cases m <;> simp [cvText, decimal_ne_nil]
  | pre a b c p m => cases m <;> simp [cvText, decimal_ne_nil]

theorem cvText_digit {cv : CompVersion} (h : ∀ w, cv ≠ .wl w) :
    ∃ n t, cvText cv = decimal n ++ t := by
  cases cv with
  | wl w => exact absurd rfl (h w)
  | major a w => rcases w with _ | ⟨w, _ | w'⟩ <;> exact ⟨a, by simp only [cvText]; simp⟩
  | minor a b w => cases w <;> exact ⟨a, by simp only [cvText]; simp⟩
  | patch a b c m => cases m <;> exact ⟨a, by simp only [cvText]; simp⟩
  | pre a b c p m => cases m <;> exact ⟨a, by simp only [cvText]; simp⟩

theorem decimal_startsWith_digit (n : Nat) (r : Str) : startsWith isDigit (decimal n ++ r) = true := by
  rw [startsWith_append_of_ne_nil (decimal_ne_nil n)]
  have := decimal_all n
  cases hn : decimal n with
  | nil => exact absurd hn (decimal_ne_nil n)
  | cons c cs =>
    rw [hn] at this; simp only [List.all_cons, Bool.and_eq_true] at this
    simpa using this.1

theorem cvText_startsWith_digit {cv : CompVersion} (h : ∀ w, cv ≠ .wl w) (r : Str) :
    startsWith isDigit (cvText cv ++ r) = true := by
  obtain ⟨n, t, e⟩ := cvText_digit h
  rw [e, List.append_assoc]; exact decimal_startsWith_digit _ _

theorem startsWith_false_of_digit {p : Char → Bool} {s : Str}
    (hs : startsWith isDigit s = true) (h : ∀ c, isDigit c = true → p c = false) :
    startsWith p s = false := by
  cases s with
  | nil => rfl
  | cons c cs => exact h c hs

theorem digit_ne {d : Char} (hd : isDigit d = false) (c : Char) (h : isDigit c = true) :
    (c == d) = false := by
  cases hh : c == d with
  | false => rfl
  | true => simp at hh; subst hh; rw [h] at hd; cases hd

/-- What a successful iteration of the loop has read. -/
structure StepRead (n : Nat) (c : Cur) (it : Item) (comp : Comparator) (c' : Cur) : Prop where
  sp0 : it.sp0 = 0
  valid : it.Valid
  bound : n < 32
  start : c'.start = c.start
  comp_eq : comp = ⟨c.idx, it.op, c.idx + (opWritten it.op).length + it.sp1, it.cv, comp.comma⟩
  text : (comp.comma = none ∧ c'.rest = [] ∧ c.rest = it.text) ∨
    (comp.comma = some (c.idx + it.text.length) ∧ c.rest = it.text ++ ',' :: c'.rest ∧
      c'.idx = c.idx + it.text.length + 1)
  bare : ∀ w, it.cv = .wl w → n = 0 ∧ comp.comma = none

theorem expectCommaOrEnd_iff (c c' : Cur) (o : Option Nat) :
    expectCommaOrEnd c = .ok (o, c') ↔
      (o = none ∧ c.rest = [] ∧ c' = c) ∨
      (o = some c.idx ∧ c.rest = ',' :: c'.rest ∧ c'.start = c.start ∧ c'.idx = c.idx + 1) := by
  obtain ⟨st, ix, rest⟩ := c
  obtain ⟨st', ix', rest'⟩ := c'
  unfold expectCommaOrEnd
  cases rest with
  | nil =>
    simp
    constructor
    · rintro ⟨rfl, rfl, rfl, rfl⟩; exact ⟨rfl, rfl, rfl, rfl⟩
    · rintro ⟨rfl, rfl, rfl, rfl⟩; exact ⟨rfl, rfl, rfl, rfl⟩
  | cons x cs =>
    by_cases hx : x = ','
    · subst hx
      simp [Cur.step]
      constructor
      · rintro ⟨rfl, rfl, rfl, rfl⟩; exact ⟨rfl, rfl, rfl, rfl⟩
      · rintro ⟨rfl, rfl, rfl, rfl⟩; exact ⟨rfl, rfl, rfl, rfl⟩
    · simp [hx]

theorem spaces_length (n : Nat) : (spaces n).length = n := by simp [spaces]

theorem wildcardArm_sound (pos : Pos) (w : WlChar) (n : Nat) (hn : n < 32) (c c' : Cur) (cs : Str)
    (hc : c.rest = w.char :: cs)
    (comp : Comparator) (h : wildcardArm pos w (n == 0) c cs = .ok (comp, c')) :
    ∃ it, StepRead n c it comp c' := by
  unfold wildcardArm at h
  simp only at h
  split at h
  · cases h
  rename_i hfirst
  have hn0 : n = 0 := by simpa using hfirst
  split at h
  · cases h
  obtain ⟨k, r, hr, hrs, hws⟩ := eatWs_spec (c.step cs)
  rw [hws] at h
  cases r with
  | cons x xs =>
    simp only at h
    split at h
    · split at h <;> cases h
    · cases h
  | nil =>
    simp only [expectCommaOrEnd, Res.bind_ok, Res.pure_eq, Res.ok.injEq, Prod.mk.injEq] at h
    obtain ⟨rfl, rfl⟩ := h
    refine ⟨⟨0, .wl, 0, .wl w, k⟩, rfl, ⟨trivial, fun _ => ⟨trivial, rfl⟩, by simp, by simp⟩, hn,
      rfl, by simp [opWritten], .inl ⟨rfl, rfl, ?_⟩, by simp [hn0]⟩
    rw [hc]
    simp [Cur.step] at hr
    simp [Item.text, spaces, opWritten, cvText]
    simpa [spaces] using hr

theorem comparatorStep_sound (pos : Pos) (n : Nat) (c c' : Cur) (b : Char) (cs : Str)
    (hc : c.rest = b :: cs) (comp : Comparator)
    (h : comparatorStep true pos n c b cs = .ok (comp, c')) :
    ∃ it, StepRead n c it comp c' := by
  unfold comparatorStep at h
  split at h
  · cases h
  rename_i hn
  have hn' : n < 32 := by simpa [MAX_COMPARATORS] using hn
  simp only at h
  cases hw : wlOf b with
  | some w =>
    rw [hw] at h
    have := wlOf_some hw
    subst this
    exact wildcardArm_sound pos w n hn' c c' cs hc comp h
  | none =>
    rw [hw] at h
    cases ho : parseOp b cs c with
    | none => rw [ho] at h; cases h
    | some oc =>
      obtain ⟨op, c1⟩ := oc
      rw [ho] at h
      obtain ⟨o1, o2, o3, o4, o5⟩ := parseOp_sound b cs c c1 op hc ho
      simp only at h
      obtain ⟨k1, r1, hr1, hrs1, hws1⟩ := eatWs_spec c1
      rw [hws1] at h
      simp only [Res.bind_eq_ok] at h
      obtain ⟨⟨cv, op', c2⟩, h2, ⟨comma, c3⟩, h3, h4⟩ := h
      simp only [Res.pure_eq, Res.ok.injEq, Prod.mk.injEq] at h3 h4
      obtain ⟨rfl, rfl⟩ := h4
      obtain ⟨⟨v1, v2, v3, v4, v5⟩, rfl⟩ := compVersion_sound _ _ _ _ _ h2
      obtain ⟨k2, r2, hr2, hrs2, hws2⟩ := eatWs_spec c2
      rw [hws2] at h3
      rw [expectCommaOrEnd_iff] at h3
      have hopt : opWritten (opAfter cv op) = opWritten op := by
        unfold opAfter
        split
        · split
          · rename_i e; rw [e]; rfl
          · rfl
        · split
          · rename_i e; rw [e]; rfl
          · rfl
        · rfl
      have hbk : op = .bl → k1 = 0 := by
        intro e
        have hd := o5 e
        subst e
        have : c1.rest = b :: cs := by rw [← hc, o1]; rfl
        rw [this] at hr1
        cases k1 with
        | zero => rfl
        | succ k =>
          simp [spaces, List.replicate_succ] at hr1
          rw [hr1.1] at hd; exact absurd hd (by decide)
      simp only at v1 v2 v3
      have hidx : c2.idx + k2 = c.idx + (opWritten op).length + k1 + (cvText cv).length + k2 := by
        rw [v3, o3]
      refine ⟨⟨0, opAfter cv op, k1, cv, k2⟩, rfl, ⟨v4, ?_, ?_, ?_⟩, hn', ?_, ?_, ?_, ?_⟩
      · -- wl
        intro e
        simp only at e
        have hwlbl : op = .bl ∧ HasWildcard cv := by
          unfold opAfter at e
          split at e
          · split at e
            · rename_i e'; exact ⟨e', by simp [HasWildcard]⟩
            · exact absurd e o4
          · split at e
            · rename_i e'; exact ⟨e', by simp [HasWildcard]⟩
            · exact absurd e o4
          · exact absurd e o4
        exact ⟨hwlbl.2, hbk hwlbl.1⟩
      · intro e
        simp only at e
        have hbl : op = .bl ∧ ¬ HasWildcard cv := by
          unfold opAfter at e
          split at e
          · split at e
            · cases e
            · rename_i e'; exact absurd e e'
          · split at e
            · cases e
            · rename_i e'; exact absurd e e'
          · rename_i g1 g2
            refine ⟨e, ?_⟩
            cases cv with
            | wl w => exact absurd rfl (v5 w)
            | major a w => cases w with
              | none => simp [HasWildcard]
              | some w => exact absurd rfl (g1 a w)
            | minor a b w => cases w with
              | none => simp [HasWildcard]
              | some w => exact absurd rfl (g2 a b w)
            | patch => simp [HasWildcard]
            | pre => simp [HasWildcard]
        exact ⟨hbl.2, hbk hbl.1⟩
      · intro w e; exact absurd e (v5 w)
      · rcases h3 with ⟨-, -, h3⟩ | ⟨-, -, h3, -⟩
        · rw [h3]; simp only; rw [v2, o2]
        · rw [h3]; simp only; rw [v2, o2]
      · simp only [hopt, o3]
      · have htext : c.rest = opWritten op ++ spaces k1 ++ cvText cv ++ spaces k2 ++ r2 := by
          rw [o1, hr1, v1, hr2]; simp
        rcases h3 with ⟨h31, h32, h33⟩ | ⟨h31, h32, -, h33⟩
        · left
          simp only at h32
          refine ⟨h31, by rw [h33]; exact h32, ?_⟩
          rw [htext, h32]; simp [Item.text, hopt, spaces]
        · right
          simp only at h32 h33
          refine ⟨?_, ?_, ?_⟩
          · simp only [h31, hidx, Item.text, hopt, List.length_append, spaces_length]
            congr 1; omega
          · rw [htext, h32]; simp [Item.text, hopt, spaces]
          · rw [h33, hidx]; simp only [Item.text, hopt, List.length_append, spaces_length]; omega
      · intro w e; exact absurd e (v5 w)

theorem _root_.Verif.Spec.Semver.Item.text_ne_nil (it : Item) : it.text ≠ [] := by
  simp [Item.text, cvText_ne_nil]

theorem itemsText_ne_nil {its : List Item} (h : its ≠ []) : itemsText its ≠ [] := by
  match its, h with
  | [it], _ => exact it.text_ne_nil
  | it :: it' :: its, _ => simp [itemsText, Item.text_ne_nil]

/-- `it` with more leading spaces. -/
def _root_.Verif.Spec.Semver.Item.lead (it : Item) (n : Nat) : Item := { it with sp0 := n }

theorem _root_.Verif.Spec.Semver.Item.lead_text {it : Item} (h : it.sp0 = 0) (n : Nat) :
    (it.lead n).text = spaces n ++ it.text := by
  simp only [Item.text, Item.lead, h]; simp [spaces]

theorem _root_.Verif.Spec.Semver.Item.lead_valid {it : Item} (h : it.Valid) (n : Nat) : (it.lead n).Valid :=
  ⟨h.cv, h.wl, h.bl, h.bare⟩

theorem reqLoop_sound (pos : Pos) (fuel : Nat) (c : Cur) (comps comps' : List Comparator)
    (lc : Option Nat) (h : reqLoop true pos fuel c comps lc = .ok (comps', none)) :
    (lc = none ∧ comps' = comps) ∨
    ∃ its, its ≠ [] ∧ c.rest = itemsText its ∧ (∀ it ∈ its, it.Valid) ∧
      comps' = comps ++ comparatorsAt c.idx its ∧ comps.length + its.length ≤ 32 ∧
      (∀ it ∈ its, ∀ w, it.cv = .wl w → comps = [] ∧ its.length = 1) := by
  induction fuel generalizing c comps lc with
  | zero => cases h
  | succ fuel ih =>
    obtain ⟨n, r, hr, hrs, hws⟩ := eatWs_spec c
    simp only [reqLoop, hws] at h
    cases r with
    | nil =>
      simp only [Res.ok.injEq, Prod.mk.injEq] at h
      exact .inl ⟨h.2, h.1.symm⟩
    | cons b cs =>
      simp only [Res.bind_eq_ok] at h
      obtain ⟨⟨comp, c1⟩, h1, h2⟩ := h
      obtain ⟨it, s⟩ := comparatorStep_sound _ _ _ _ _ _ rfl _ h1
      simp only at h2
      right
      have hce := s.comp_eq
      have hb := s.bound
      rcases ih _ _ _ h2 with ⟨e1, e2⟩ | ⟨its, hne, ht, hv, hc', hlen, hsole⟩
      · rcases s.text with ⟨t1, t2, t3⟩ | ⟨t1, -, -⟩
        · refine ⟨[it.lead n], by simp, ?_, by simpa using Item.lead_valid s.valid n, ?_, by simp; omega, ?_⟩
          · simp only [itemsText, Item.lead_text s.sp0]
            rw [hr]; simp only at t3; rw [t3]
          · rw [e2, hce, t1]; simp [comparatorsAt, Item.lead]
          · intro i hi w hw
            simp only [List.mem_singleton] at hi
            subst hi
            have := (s.bare w hw).1
            simp at this
            exact ⟨this, rfl⟩
        · rw [e1] at t1; cases t1
      · rcases s.text with ⟨t1, t2, t3⟩ | ⟨t1, t2, t3⟩
        · exact absurd (by rw [← ht, t2]) (itemsText_ne_nil hne)
        · obtain ⟨it', its', rfl⟩ := List.exists_cons_of_ne_nil hne
          refine ⟨it.lead n :: it' :: its', by simp, ?_, ?_, ?_, ?_, ?_⟩
          · simp only [itemsText, Item.lead_text s.sp0]
            rw [hr]; simp only at t2; rw [t2, ht]; simp
          · intro i hi
            rcases List.mem_cons.1 hi with rfl | hi
            · exact Item.lead_valid s.valid n
            · exact hv i hi
          · rw [hc', hce, t1, t3]
            have hl : (it.lead n).text.length = n + it.text.length := by
              rw [Item.lead_text s.sp0]; simp [spaces]
            simp only [comparatorsAt, hl]
            simp only [Item.lead, List.append_assoc, List.cons_append, List.nil_append]
            simp [Nat.add_assoc]
          · simp at hlen ⊢; omega
          · intro i hi w hw
            exfalso
            rcases List.mem_cons.1 hi with rfl | hi
            · have := (s.bare w hw).2
              rw [t1] at this; cases this
            · have := (hsole i hi w hw).1; simp at this

theorem mem_dotted {ss : List Str} {c : Char} (h : c ∈ dotted ss) (hc : c ≠ '.') :
    ∃ x ∈ ss, c ∈ x := by
  induction ss with
  | nil => simp [dotted] at h
  | cons s ss ih =>
    cases ss with
    | nil => simp [dotted] at h; exact ⟨s, by simp, h⟩
    | cons t ts =>
      simp only [dotted, List.mem_append, List.mem_cons, List.mem_nil_iff] at h
      rcases h with h | h
      · exact ⟨s, by simp, h⟩
      · have h' : c ∈ dotted (t :: ts) := by
          rcases h with h | h
          · first | exact absurd h hc | simp_all
          · exact h
        obtain ⟨x, hx, hcx⟩ := ih h'
        exact ⟨x, by simp only [List.mem_cons] at hx ⊢; exact .inr hx, hcx⟩

theorem ascii_cvText {cv : CompVersion} (h : ValidCv cv) : blen (cvText cv) = (cvText cv).length := by
  have hd : ∀ n, blen (decimal n) = (decimal n).length := fun n =>
    blen_eq_length_of_digits (decimal_all n)
  have hw : ∀ w : WlChar, w.char.utf8Size = 1 := by intro w; cases w <;> decide
  have hdot : ('.' : Char).utf8Size = 1 := by decide
  have hpl : ('+' : Char).utf8Size = 1 := by decide
  have hhy : ('-' : Char).utf8Size = 1 := by decide
  have hseg : ∀ (f : IdentField) (s : Str), (∀ x ∈ splitDot s, SegOk f x) → blen s = s.length := by
    intro f s hs
    have : ∀ c ∈ s, c.utf8Size = 1 := by
      intro c hc
      by_cases hcd : c = '.'
      · subst hcd; decide
      · rw [← dotted_splitDot s] at hc
        obtain ⟨x, hx, hcx⟩ := mem_dotted hc hcd
        exact identChar_utf8 (List.all_eq_true.1 (hs x hx).2.1 _ hcx)
    clear hs
    induction s with
    | nil => rfl
    | cons c cs ih =>
      have := this c (by simp)
      simp [ih (fun c hc => by apply_assumption; simp [hc]), this]; omega
  have hb : ∀ s, BuildTag s → blen s = s.length := fun s hs => hseg _ _ ((buildTag_iff _).1 hs)
  have hp : ∀ s, PreTag s → blen s = s.length := fun s hs => hseg _ _ ((preTag_iff _).1 hs)
  cases cv with
  | wl w => simp [cvText, hw]
  | major a w => rcases w with _ | ⟨w, _ | w'⟩ <;> simp [cvText, hd, hw, hdot]
  | minor a b w => cases w <;> simp [cvText, hd, hw, hdot] <;> omega
  | patch a b c m =>
    cases m with
    | none => simp [cvText, hd, hdot]; omega
    | some m => simp [cvText, hd, hdot, hpl, hb m (h.2.2.2 m rfl)]; omega
  | pre a b c p m =>
    cases m with
    | none => simp [cvText, hd, hdot, hhy, hp p h.2.2.2.1]; omega
    | some m => simp [cvText, hd, hdot, hpl, hhy, hp p h.2.2.2.1, hb m (h.2.2.2.2 m rfl)]; omega

theorem ascii_item {it : Item} (h : it.Valid) : blen it.text = it.text.length := by
  have hs : ∀ n, blen (spaces n) = n := by
    intro n
    induction n with
    | zero => rfl
    | succ n ih =>
      have hsp : (' ' : Char).utf8Size = 1 := by decide
      simp only [spaces, List.replicate_succ, blen_cons] at ih ⊢
      rw [ih, hsp]; omega
  have ho : blen (opWritten it.op) = (opWritten it.op).length := by
    cases it.op <;> decide
  simp [Item.text, hs, ho, ascii_cvText h.cv, spaces_length]

theorem ascii_items {its : List Item} (h : ∀ it ∈ its, it.Valid) :
    blen (itemsText its) = (itemsText its).length := by
  induction its with
  | nil => rfl
  | cons it its ih =>
    have h1 := ascii_item (h it (by simp))
    have h2 := ih (fun i hi => h i (by simp [hi]))
    cases its with
    | nil => simpa [itemsText] using h1
    | cons it' its =>
      have hc : (',' : Char).utf8Size = 1 := by decide
      simp [itemsText, h1, h2, hc]; omega

theorem parseRequirement_sound (input : Str) (pos : Pos) (req : VersionReq)
    (h : parseRequirement true input pos = .ok req) : ReqText input pos req := by
  unfold parseRequirement at h
  rw [Res.bind_eq_ok] at h
  obtain ⟨⟨comps, lc⟩, h1, h2⟩ := h
  simp only at h2
  cases lc with
  | some o => cases h2
  | none =>
    simp only at h2
    split at h2
    · cases h2
    rename_i hne
    cases h2
    rcases reqLoop_sound _ _ _ _ _ _ h1 with ⟨-, e⟩ | ⟨its, i1, i2, i3, i4, i5, i6⟩
    · exact absurd e hne
    · have hin : input = itemsText its := i2
      refine ⟨its, ⟨i1, by simpa using i5, i3, fun it hi w hw => (i6 it hi w hw).2⟩, hin, ?_⟩
      rw [hin, ascii_items i3, i4]; rfl

/-! ## completeness -/

theorem opAfter_rawOp {it : Item} (h : it.Valid) (hb : ∀ w, it.cv ≠ .wl w) :
    opAfter it.cv (rawOp it.op) = it.op := by
  unfold rawOp
  by_cases hw : it.op = .wl
  · rw [if_pos hw, hw]
    have := (h.wl hw).1
    cases hcv : it.cv with
    | wl w => exact absurd hcv (hb w)
    | major a w => rw [hcv] at this; cases w with
      | none => exact absurd rfl this
      | some w => rfl
    | minor a b w => rw [hcv] at this; cases w with
      | none => exact absurd rfl this
      | some w => rfl
    | patch => rw [hcv] at this; exact this.elim
    | pre => rw [hcv] at this; exact this.elim
  · rw [if_neg hw]
    unfold opAfter
    split
    · rename_i e; rw [if_neg]; intro hh
      exact (h.bl hh).1 (by rw [e]; simp [HasWildcard])
    · rename_i e; rw [if_neg]; intro hh
      exact (h.bl hh).1 (by rw [e]; simp [HasWildcard])
    · rfl

/-- What follows an item. -/
def AfterItem (ix : Nat) (tail : Str) (comma : Option Nat) (st : Pos) (c' : Cur) : Prop :=
  (tail = [] ∧ comma = none ∧ c' = ⟨st, ix, []⟩) ∨
  (∃ t, tail = ',' :: t ∧ comma = some ix ∧ c' = ⟨st, ix + 1, t⟩)

theorem AfterItem.expect {ix : Nat} {tail : Str} {comma : Option Nat} {st : Pos} {c' : Cur}
    (h : AfterItem ix tail comma st c') : expectCommaOrEnd ⟨st, ix, tail⟩ = .ok (comma, c') := by
  rcases h with ⟨rfl, rfl, rfl⟩ | ⟨t, rfl, rfl, rfl⟩ <;> rfl

theorem AfterItem.endOk {ix : Nat} {tail : Str} {comma : Option Nat} {st : Pos} {c' : Cur}
    (h : AfterItem ix tail comma st c') (n : Nat) : EndOk (spaces n ++ tail) := by
  cases n with
  | succ n => exact .inr ⟨' ', spaces n ++ tail, rfl, .inl rfl⟩
  | zero =>
    rcases h with ⟨rfl, rfl, rfl⟩ | ⟨t, rfl, rfl, rfl⟩
    · exact .inl rfl
    · exact .inr ⟨',', t, rfl, .inr rfl⟩

theorem AfterItem.nospace {ix : Nat} {tail : Str} {comma : Option Nat} {st : Pos} {c' : Cur}
    (h : AfterItem ix tail comma st c') : startsWith (· == ' ') tail = false := by
  rcases h with ⟨rfl, rfl, rfl⟩ | ⟨t, rfl, rfl, rfl⟩ <;> rfl

theorem comparatorStep_complete (ovf : Bool) (pos st : Pos) (n : Nat) (hn : n < 32) (it : Item)
    (hv : it.Valid) (h0 : it.sp0 = 0) (ix : Nat) (b : Char) (cs tail : Str)
    (ht : b :: cs = it.text ++ tail) (comma : Option Nat) (c' : Cur)
    (ha : AfterItem (ix + it.text.length) tail comma st c')
    (hbare : ∀ w, it.cv = .wl w → n = 0 ∧ tail = []) :
    comparatorStep ovf pos n ⟨st, ix, b :: cs⟩ b cs =
      .ok (⟨ix, it.op, ix + (opWritten it.op).length + it.sp1, it.cv, comma⟩, c') := by
  have htext : it.text = opWritten it.op ++ (spaces it.sp1 ++ (cvText it.cv ++ spaces it.sp2)) := by
    simp [Item.text, h0, spaces]
  have hlen : it.text.length = (opWritten it.op).length + it.sp1 + (cvText it.cv).length + it.sp2 := by
    rw [htext]; simp [spaces_length]; omega
  unfold comparatorStep
  rw [if_neg (by simp [MAX_COMPARATORS]; omega)]
  by_cases hb : ∃ w, it.cv = .wl w
  · obtain ⟨w, hw⟩ := hb
    obtain ⟨rfl, rfl⟩ := hbare w hw
    have hop := hv.bare w hw
    have hsp := (hv.wl hop).2
    have hcs : b = w.char ∧ cs = spaces it.sp2 := by
      rw [htext, hop, hsp, hw] at ht
      simpa [opWritten, spaces, cvText] using ht
    obtain ⟨rfl, rfl⟩ := hcs
    simp only [wlOf_char]
    unfold wildcardArm
    simp only [beq_self_eq_true, Bool.not_true, Bool.false_eq_true, if_false]
    have hws : eatWs (Cur.step ⟨st, ix, w.char :: spaces it.sp2⟩ (spaces it.sp2)) =
        ⟨st, ix + 1 + it.sp2, []⟩ := by
      have := eatWs_eq (start := st) (idx := ix + 1) (n := it.sp2) (r := []) rfl
      simpa [Cur.step] using this
    rw [hws]
    rcases ha with ⟨-, rfl, rfl⟩ | ⟨t, h, -, -⟩
    · rw [hlen, hop, hsp, hw]
      simp only [expectCommaOrEnd, opWritten, cvText]
      cases it.sp2 <;> simp [spaces, List.replicate_succ] <;> omega
    · cases h
  · have hb' : ∀ w, it.cv ≠ .wl w := fun w hw => hb ⟨w, hw⟩
    let r := spaces it.sp1 ++ (cvText it.cv ++ (spaces it.sp2 ++ tail))
    have hbr : b :: cs = opWritten it.op ++ r := by
      rw [ht, htext]; simp [r]
    have hcvd := cvText_startsWith_digit hb' (spaces it.sp2 ++ tail)
    have hrdig : it.sp1 = 0 → startsWith isDigit r = true := by
      intro e; simp only [r, e]; simpa [spaces] using hcvd
    have hr : ∀ q : Char → Bool, q ' ' = false → (∀ c, isDigit c = true → q c = false) →
        startsWith q r = false := by
      intro q h1 h2
      cases hs : it.sp1 with
      | zero => exact startsWith_false_of_digit (hrdig hs) h2
      | succ k => simp only [r, hs, spaces, List.replicate_succ, List.cons_append]; exact h1
    have hwl : wlOf b = none := by
      apply wlOf_none
      have : startsWith isWl (b :: cs) = false := by
        rw [hbr]
        cases ho : it.op with
        | wl => exact startsWith_false_of_digit (hrdig (hv.wl ho).2) digit_not_wl
        | bl => exact startsWith_false_of_digit (hrdig (hv.bl ho).2) digit_not_wl
        | _ => simp only [opWritten, List.cons_append, startsWith_cons]; decide
      simpa using this
    simp only [hwl]
    rw [parseOp_complete it.op st ix r b cs hbr (hr _ (by decide) (fun c h => digit_ne (by decide) c h))
      (by
        rintro (h | h)
        · exact hrdig (hv.wl h).2
        · exact hrdig (hv.bl h).2)]
    simp only
    rw [show r = spaces it.sp1 ++ (cvText it.cv ++ (spaces it.sp2 ++ tail)) from rfl,
      eatWs_eq (startsWith_false_of_digit hcvd (fun c h => digit_ne (by decide) c h))]
    simp only
    rw [compVersion_complete ovf it.cv _ st _ _ hv.cv hb' (ha.endOk _)]
    simp only [Res.bind_ok]
    rw [eatWs_eq ha.nospace]
    rw [show ix + (opWritten it.op).length + it.sp1 + (cvText it.cv).length + it.sp2 =
      ix + it.text.length by rw [hlen]; omega, ha.expect]
    simp [opAfter_rawOp hv hb']

theorem Item_drop (it : Item) : it.text = spaces it.sp0 ++ (it.lead 0).text := by
  simp [Item.text, Item.lead, spaces]

theorem lead_startsWith {it : Item} (hv : it.Valid) (r : Str) :
    startsWith (· == ' ') ((it.lead 0).text ++ r) = false := by
  have hw : ∀ w : WlChar, (w.char == ' ') = false := by intro w; cases w <;> decide
  have h1 : startsWith (· == ' ') (cvText it.cv ++ (spaces it.sp2 ++ r)) = false := by
    by_cases hb : ∃ w, it.cv = .wl w
    · obtain ⟨w, hcv⟩ := hb
      rw [hcv]; simpa [cvText] using hw w
    · exact startsWith_false_of_digit (cvText_startsWith_digit (fun w hw => hb ⟨w, hw⟩) _)
        (fun c h => digit_ne (by decide) c h)
  cases ho : it.op with
  | wl =>
    have := (hv.wl ho).2
    simpa [Item.text, Item.lead, ho, this, spaces, opWritten] using h1
  | bl =>
    have := (hv.bl ho).2
    simpa [Item.text, Item.lead, ho, this, spaces, opWritten] using h1
  | _ => simp only [Item.text, Item.lead, ho, spaces, opWritten, List.replicate_zero,
           List.nil_append, List.cons_append, startsWith_cons]; decide

theorem reqLoop_nil (ovf : Bool) (pos st : Pos) (fuel : Nat) (ix : Nat) (comps : List Comparator)
    (lc : Option Nat) : reqLoop ovf pos (fuel + 1) ⟨st, ix, []⟩ comps lc = .ok (comps, lc) := rfl

theorem reqLoop_item (ovf : Bool) (pos st : Pos) (fuel : Nat) (ix : Nat) (comps : List Comparator)
    (lc : Option Nat) (it : Item) (hv : it.Valid) (hn : comps.length < 32) (tail : Str)
    (comma : Option Nat) (c' : Cur) (ha : AfterItem (ix + it.text.length) tail comma st c')
    (hbare : ∀ w, it.cv = .wl w → comps = [] ∧ tail = []) :
    reqLoop ovf pos (fuel + 1) ⟨st, ix, it.text ++ tail⟩ comps lc =
      reqLoop ovf pos fuel c' (comps ++ [⟨ix + it.sp0, it.op,
        ix + it.sp0 + (opWritten it.op).length + it.sp1, it.cv, comma⟩]) comma := by
  rw [Item_drop it, List.append_assoc]
  have hl : it.text.length = it.sp0 + (it.lead 0).text.length := by
    conv => lhs; rw [Item_drop it]
    simp [spaces]
  simp only [reqLoop]
  rw [eatWs_eq (lead_startsWith hv tail)]
  simp only
  obtain ⟨b, cs, hbc⟩ := List.exists_cons_of_ne_nil
    (show (it.lead 0).text ++ tail ≠ [] by simp [Item.text_ne_nil])
  rw [hbc]
  simp only
  rw [comparatorStep_complete ovf pos st comps.length hn (it.lead 0) (Item.lead_valid hv 0) rfl
    (ix + it.sp0) b cs tail hbc.symm comma c' (by rwa [hl, ← Nat.add_assoc] at ha)
    (by intro w hw; exact ⟨by simp [(hbare w hw).1], (hbare w hw).2⟩)]
  rfl

theorem reqLoop_complete (ovf : Bool) (pos st : Pos) (its : List Item) (fuel : Nat)
    (hf : its.length < fuel) (ix : Nat) (comps : List Comparator) (lc : Option Nat)
    (hne : its ≠ []) (hv : ∀ it ∈ its, it.Valid) (hlen : comps.length + its.length ≤ 32)
    (hbare : ∀ it ∈ its, ∀ w, it.cv = .wl w → comps = [] ∧ its.length = 1) :
    reqLoop ovf pos fuel ⟨st, ix, itemsText its⟩ comps lc =
      .ok (comps ++ comparatorsAt ix its, none) := by
  induction its generalizing fuel ix comps lc with
  | nil => exact absurd rfl hne
  | cons it its ih =>
    obtain ⟨fuel, rfl⟩ : ∃ f, fuel = f + 1 := ⟨fuel - 1, by simp at hf; omega⟩
    simp at hf hlen
    cases its with
    | nil =>
      obtain ⟨fuel, rfl⟩ : ∃ f, fuel = f + 1 := ⟨fuel - 1, by simp at hf; omega⟩
      simp only [itemsText]
      have := reqLoop_item ovf pos st (fuel + 1) ix comps lc it (hv it (by simp)) (by simp at hlen; omega)
        [] none ⟨st, ix + it.text.length, []⟩ (.inl ⟨rfl, rfl, rfl⟩)
        (fun w hw => ⟨(hbare it (by simp) w hw).1, rfl⟩)
      rw [List.append_nil] at this
      rw [this, reqLoop_nil]; rfl
    | cons it' its =>
      simp only [itemsText, List.append_assoc, List.cons_append, List.nil_append]
      rw [reqLoop_item ovf pos st fuel ix comps lc it (hv it (by simp)) (by simp at hlen; omega)
        (',' :: itemsText (it' :: its)) (some (ix + it.text.length))
        ⟨st, ix + it.text.length + 1, itemsText (it' :: its)⟩ (.inr ⟨_, rfl, rfl, rfl⟩)
        (fun w hw => by have := (hbare it (by simp) w hw).2; simp at this)]
      rw [ih fuel (by simp at hf ⊢; omega) _ _ _ (by simp) (fun i hi => hv i (by simp [hi]))
        (by simp at hlen ⊢; omega)
        (fun i hi w hw => by
          have := (hbare i (by simp only [List.mem_cons] at hi ⊢; exact .inr hi) w hw).2; simp at this)]
      simp [comparatorsAt]

theorem items_length_le (its : List Item) (h : its ≠ []) : its.length ≤ (itemsText its).length := by
  induction its with
  | nil => simp
  | cons it its ih =>
    have : 0 < it.text.length := List.length_pos_iff.2 it.text_ne_nil
    cases its with
    | nil => simp [itemsText]; omega
    | cons it' its =>
      have := ih (by simp)
      simp [itemsText] at this ⊢; omega

theorem comparatorsAt_ne_nil {its : List Item} (h : its ≠ []) (ix : Nat) : comparatorsAt ix its ≠ [] := by
  match its, h with
  | [it], _ => simp [comparatorsAt]
  | it :: it' :: its, _ => simp [comparatorsAt]

theorem parseRequirement_complete (ovf : Bool) (input : Str) (pos : Pos) (req : VersionReq)
    (h : ReqText input pos req) : parseRequirement ovf input pos = .ok req := by
  obtain ⟨its, hv, rfl, rfl⟩ := h
  unfold parseRequirement
  rw [Cur.new, reqLoop_complete ovf pos pos its _
    (by have := items_length_le its hv.nonempty; omega) 0 [] none hv.nonempty hv.valid
    (by simpa using hv.bound) (fun it hi w hw => ⟨rfl, hv.sole it hi w hw⟩)]
  simp [comparatorsAt_ne_nil hv.nonempty, ascii_items hv.valid]

theorem compVersion_refines (c : Cur) (op : Op) :
    Refines (compVersion true c op) (compVersion false c op) := by
  unfold compVersion
  refine Refines.bind (parseInt_refines _ _) fun x => ?_
  obtain ⟨M, c1⟩ := x
  simp only
  split
  · exact .rfl' _
  · split
    · exact .rfl' _
    · refine Refines.bind (parseInt_refines _ _) fun y => ?_
      obtain ⟨m, c2⟩ := y
      simp only
      split
      · exact .rfl' _
      · split
        · exact .rfl' _
        · exact Refines.bind (parseInt_refines _ _) fun y => .rfl' _

theorem comparatorStep_refines (pos : Pos) (n : Nat) (c : Cur) (b : Char) (cs : Str) :
    Refines (comparatorStep true pos n c b cs) (comparatorStep false pos n c b cs) := by
  unfold comparatorStep
  split
  · exact .rfl' _
  · simp only
    split
    · exact .rfl' _
    · split
      · exact .rfl' _
      · exact Refines.bind (compVersion_refines _ _) fun _ => .rfl' _

theorem reqLoop_refines (pos : Pos) (fuel : Nat) (c : Cur) (comps : List Comparator)
    (lc : Option Nat) :
    Refines (reqLoop true pos fuel c comps lc) (reqLoop false pos fuel c comps lc) := by
  induction fuel generalizing c comps lc with
  | zero => exact .rfl' _
  | succ fuel ih =>
    simp only [reqLoop]
    split
    · exact .rfl' _
    · exact Refines.bind (comparatorStep_refines _ _ _ _ _) fun _ => ih _ _ _

theorem parseRequirement_refines (input : Str) (pos : Pos) :
    Refines (parseRequirement true input pos) (parseRequirement false input pos) := by
  unfold parseRequirement
  exact Refines.bind (reqLoop_refines _ _ _ _ _) fun _ => .rfl' _

end Verif.Semver
