import Verif.Toml.SoundVal

/-! # Runs without diagnostics follow the grammar: documents -/

namespace Verif.Toml
open Verif Verif.Spec.Toml

variable {α β σ : Type} {E : Env} {s s' s1 s2 : PS} {pre : Str}

/-! ## Items of the tree -/

/-- The items that the parts of the tree say. -/
def its (asts : List Ast) : List Item := asts.flatMap astItems

theorem its_append (a b : List Ast) : its (a ++ b) = its a ++ its b := by simp [its]
theorem its_comments (cs : List Comment) : its (cs.map Ast.comment) = [] := by
  induction cs with
  | nil => rfl
  | cons c cs ih =>
    have : its (Ast.comment c :: cs.map Ast.comment) = its (cs.map Ast.comment) := rfl
    rw [List.map_cons, this, ih]
theorem its_one (a : Ast) : its [a] = astItems a := by simp [its]

/-- A header. -/
def isTab : Ast → Bool
  | .table _ => true
  | .array _ => true
  | _ => false

/-- An assignment outside of tables. -/
def isAsg : Ast → Bool
  | .assignment _ => true
  | _ => false

theorem hasHeader_append (a b : List Item) : hasHeader (a ++ b) = (hasHeader a || hasHeader b) := by
  simp [hasHeader]

theorem hasHeader_items (a : Ast) : hasHeader (astItems a) = isTab a := by
  cases a with
  | assignment a => rfl
  | table t => rfl
  | array t => rfl
  | comment c => rfl

theorem hasHeader_its (asts : List Ast) : hasHeader (its asts) = asts.any isTab := by
  induction asts with
  | nil => rfl
  | cons a as ih =>
    have : its (a :: as) = astItems a ++ its as := rfl
    rw [this, hasHeader_append, hasHeader_items, ih]
    rfl

/-- The parts of the tree so far; `b`: there is a header among them. -/
structure RI (b : Bool) (asts : List Ast) : Prop where
  first : asts.Pairwise (fun x y => isTab x = true → isAsg y = false)
  last : (b = true ∧ ∃ a x, asts = a ++ [x] ∧ isTab x = true) ∨ (b = false ∧ ∀ x ∈ asts, isTab x = false)

theorem RI.rootFirst {b : Bool} {asts : List Ast} (h : RI b asts) : RootFirst asts := by
  intro a x c he
  have := h.first
  rw [he, List.pairwise_append] at this
  have h3 := this.2.2
  show hasHeader (its a) = false
  rw [hasHeader_its, List.any_eq_false]
  intro y hy hty
  have := h3 y hy (.assignment x) (by simp) hty
  cases this

theorem RI.comments {asts : List Ast} (h : RI false asts) (cs : List Comment) :
    RI false (asts ++ cs.map Ast.comment) := by
  have hno : ∀ x ∈ asts, isTab x = false := by
    rcases h.last with ⟨h, -⟩ | ⟨-, h⟩
    · cases h
    · exact h
  have hc : ∀ x ∈ cs.map Ast.comment, isTab x = false ∧ isAsg x = false := by
    intro x hx
    obtain ⟨c, -, rfl⟩ := List.mem_map.1 hx
    exact ⟨rfl, rfl⟩
  refine ⟨?_, .inr ⟨rfl, fun x hx => ?_⟩⟩
  · rw [List.pairwise_append]
    refine ⟨h.first, ?_, fun x hx y hy _ => (hc y hy).2⟩
    refine List.Pairwise.imp_of_mem (R := fun _ _ => True) (fun _ hb _ _ => (hc _ hb).2) ?_
    exact List.pairwise_of_forall (fun _ _ => trivial)
  · rcases List.mem_append.1 hx with hx | hx
    · exact hno x hx
    · exact (hc x hx).1

theorem RI.header {b : Bool} {asts : List Ast} (h : RI b asts) (cs : List Comment) {x : Ast}
    (hx : isTab x = true) : RI true (asts ++ cs.map Ast.comment ++ [x]) := by
  have hx' : isAsg x = false := by cases x <;> simp_all [isTab, isAsg]
  have hc : ∀ x ∈ cs.map Ast.comment, isTab x = false ∧ isAsg x = false := by
    intro x hx
    obtain ⟨c, -, rfl⟩ := List.mem_map.1 hx
    exact ⟨rfl, rfl⟩
  refine ⟨?_, .inl ⟨rfl, _, x, rfl, hx⟩⟩
  rw [List.pairwise_append, List.pairwise_append]
  refine ⟨⟨h.first, ?_, fun x hx y hy _ => (hc y hy).2⟩, by simp, fun y _ z hz _ => ?_⟩
  · refine List.Pairwise.imp_of_mem (R := fun _ _ => True) (fun _ hb _ _ => (hc _ hb).2) ?_
    exact List.pairwise_of_forall (fun _ _ => trivial)
  · rw [List.mem_singleton.1 hz]; exact hx'

theorem RI.assign {asts : List Ast} (h : RI false asts) (a : ToplevelAssignment) :
    RI false (asts ++ [.assignment a]) := by
  have hno : ∀ x ∈ asts, isTab x = false := by
    rcases h.last with ⟨h, -⟩ | ⟨-, h⟩
    · cases h
    · exact h
  refine ⟨?_, .inr ⟨rfl, fun x hx => ?_⟩⟩
  · rw [List.pairwise_append]
    refine ⟨h.first, by simp, fun x hx y _ ht => ?_⟩
    rw [hno x hx] at ht; cases ht
  · rcases List.mem_append.1 hx with hx | hx
    · exact hno x hx
    · rw [List.mem_singleton.1 hx]; rfl

/-- The last part is changed. -/
theorem RI.change {b : Bool} {a : List Ast} {x y : Ast} (h : RI b (a ++ [x])) (h1 : isTab y = isTab x)
    (h2 : isAsg y = isAsg x) : RI b (a ++ [y]) := by
  have hf := h.first
  rw [List.pairwise_append] at hf
  refine ⟨?_, ?_⟩
  · rw [List.pairwise_append]
    refine ⟨hf.1, by simp, fun z hz w hw ht => ?_⟩
    rw [List.mem_singleton.1 hw, h2]
    exact hf.2.2 z hz x (by simp) ht
  · rcases h.last with ⟨hb, a', x', he, hx⟩ | ⟨hb, hn⟩
    · left
      refine ⟨hb, a, y, rfl, ?_⟩
      obtain ⟨rfl, hh⟩ := List.append_inj' he rfl
      simp only [List.cons.injEq, and_true] at hh
      rw [h1, hh, hx]
    · right
      refine ⟨hb, fun z hz => ?_⟩
      rcases List.mem_append.1 hz with hz | hz
      · exact hn z (by simp [hz])
      · rw [List.mem_singleton.1 hz, h1]; exact hn x (by simp)

/-! ## Comments -/

theorem appendLast_items {id : Nat} : ∀ {as as' : List ToplevelAssignment}, appendLast as id = some as' →
    as'.map assignmentItem = as.map assignmentItem := by
  intro as
  induction as with
  | nil => intro as' h; cases h
  | cons a as ih =>
    intro as' h
    cases as with
    | nil =>
      unfold appendLast at h
      obtain ⟨c, -, h⟩ := Option.bind_eq_some_iff.1 h
      cases h; rfl
    | cons b as =>
      unfold appendLast at h
      obtain ⟨l, h1, h⟩ := Option.bind_eq_some_iff.1 h
      cases h
      have := ih h1
      simp only [List.map_cons] at this ⊢
      rw [this]

theorem appendComment_items {a a' : Ast} {id : Nat} (h : a.appendComment id = some a') :
    astItems a' = astItems a ∧ isTab a' = isTab a ∧ isAsg a' = isAsg a := by
  cases a with
  | assignment a =>
    obtain ⟨c, -, rfl⟩ := Option.map_eq_some_iff.1 h
    exact ⟨rfl, rfl, rfl⟩
  | comment c => cases h
  | table t =>
    obtain ⟨t', h1, rfl⟩ := Option.map_eq_some_iff.1 h
    refine ⟨?_, rfl, rfl⟩
    unfold Table.appendComment at h1
    split at h1
    · obtain ⟨c, -, h1⟩ := Option.bind_eq_some_iff.1 h1
      cases h1; rfl
    · obtain ⟨as, h2, h1⟩ := Option.bind_eq_some_iff.1 h1
      cases h1
      simp only [astItems, appendLast_items h2]
  | array t =>
    obtain ⟨t', h1, rfl⟩ := Option.map_eq_some_iff.1 h
    refine ⟨?_, rfl, rfl⟩
    unfold ArrayEntry.appendComment at h1
    split at h1
    · obtain ⟨c, -, h1⟩ := Option.bind_eq_some_iff.1 h1
      cases h1; rfl
    · obtain ⟨as, h2, h1⟩ := Option.bind_eq_some_iff.1 h1
      cases h1
      simp only [astItems, appendLast_items h2]

/-- A comment. -/
theorem rootComment_went (hE : EnvEof E) (hC : Cx E s) {id : Nat} (hty : (pk E s).ty = .comment id)
    {r r' : RootSt} {b : Bool} (hR : RI b r.asts) (h : rootComment E (pk E s) id r s = .ok r' s') :
    (∃ x p, Went E s [(.comment x, p)] s') ∧ RI b r'.asts ∧ its r'.asts = its r.asts ∧
      r'.newlineRequired = r.newlineRequired := by
  unfold rootComment at h
  rw [bind_next] at h
  obtain ⟨c, s1, h1, h⟩ := bind_inv h
  obtain ⟨w, hw, rfl⟩ := getComment_inv h1
  have w1 := hC.step hE (by rw [hty]; simp)
  rw [vw_comment hty hw] at w1
  split at h
  · obtain ⟨cid, s2, h2, h⟩ := bind_inv h
    have w2 := w1.trans (w1.cx.still (still_store _) h2)
    generalize ha : r.asts.getLast? = o at h
    cases o with
    | none => cases h
    | some a =>
      dsimp only at h
      obtain ⟨a', ha', h⟩ := bind_lift_inv h
      obtain ⟨rfl, rfl⟩ := pure_inv h
      obtain ⟨e1, e2, e3⟩ := appendComment_items ha'
      have hsp := getLast_split ha
      refine ⟨⟨w, _, by simpa using w2⟩, ?_, ?_, rfl⟩
      · rw [hsp] at hR
        exact hR.change e2 e3
      · dsimp only
        rw [its_append, its_one, e1]
        conv => rhs; rw [hsp]
        rw [its_append, its_one]
  · obtain ⟨rfl, rfl⟩ := pure_inv h
    exact ⟨⟨w, _, w1⟩, hR, rfl, rfl⟩

/-! ## Headers -/

theorem Cx.same_line (hC : Cx E s) (hE : EnvEof E) {c : Char}
    (hty : ∀ x y, TokAt E (pk E s) x y → y = [c]) (hc : c ≠ '\n') (h1 : (pk E s).ty ≠ .eof)
    (h2 : (pk E s.adv).ty ≠ .eof) : (pk E s.adv).start.line = (pk E s).start.line := by
  obtain ⟨pre, hC⟩ := hC
  obtain ⟨g, y, hN⟩ := hC.next hE h1
  obtain ⟨g', y', hN'⟩ := hN.ch.next hE h2
  rw [hN.tok.start, hN'.tok.start, posOf_plus hN'.blank.nonl, hty _ _ hN.tok, posOf_plus (y := [c])]
  · rfl
  · simp [Ne.symm hc]

theorem pos_plus_one {p q : Pos} (h1 : q.line = p.line) (h2 : p.char + 1 = q.char) : q = p.plus 1 := by
  obtain ⟨a, b⟩ := p
  obtain ⟨c, d⟩ := q
  simp only [Pos.plus] at *
  rw [h1, h2]

theorem finishHeader_items {r r' : RootSt} {l : Pos} {la : Option Pos} {k : Option Key}
    {q : Option Pos × Option Pos} {b : Bool} (hR : RI b r.asts)
    (h : finishHeader ovf r l la k q s = .ok r' s') :
    s'.rest = s.rest ∧ r'.newlineRequired = true ∧ RI true r'.asts ∧
      its r'.asts = its r.asts ++ [if la.isSome then .arrayTable (headerNames k) else .table (headerNames k)] := by
  unfold finishHeader at h
  obtain ⟨pos, s1, h1, h⟩ := bind_inv h
  have e1 := (still_findAssoc _ _).out _ _ _ h1
  dsimp only at h
  obtain ⟨cm, s2, h2, h⟩ := bind_inv h
  have e2 := (still_storeComments _ _ _).out _ _ _ h2
  split at h
  · obtain ⟨hd, h3, h⟩ := bind_lift_inv h
    obtain ⟨rfl, rfl⟩ := pure_inv h
    unfold ArrayHeader.new at h3
    obtain ⟨x, -, h3⟩ := Option.bind_eq_some_iff.1 h3
    obtain ⟨y, -, h3⟩ := Option.bind_eq_some_iff.1 h3
    cases h3
    refine ⟨by rw [e2, e1], rfl, hR.header _ rfl, ?_⟩
    rw [its_append, its_append, its_comments, its_one]
    simp [astItems]
  · obtain ⟨hd, h3, h⟩ := bind_lift_inv h
    obtain ⟨rfl, rfl⟩ := pure_inv h
    unfold TableHeader.new at h3
    obtain ⟨x, -, h3⟩ := Option.bind_eq_some_iff.1 h3
    cases h3
    refine ⟨by rw [e2, e1], rfl, hR.header _ rfl, ?_⟩
    rw [its_append, its_append, its_comments, its_one]
    simp [astItems]

theorem openArray_sound (hE : EnvEof E) (hC : Cx E s) (hty : (pk E s).ty = .squareLeft)
    {o : Option Pos} (h : openArray E (pk E s).start s.adv = .ok o s') (he : s'.errors = []) :
    (o = none ∧ s' = s.adv) ∨ (o.isSome = true ∧ Went E s.adv [(.punct '[', (pk E s).start.plus 1)] s') := by
  have w1 := hC.step hE (by rw [hty]; simp)
  unfold openArray at h
  rw [bind_peek] at h
  split at h
  · rename_i h2
    right
    rw [bind_next] at h
    have w2 := w1.cx.step hE (by rw [h2]; simp)
    rw [vw_sl h2] at w2
    split at h
    · exact absurd he (bind_error_dirty h (fun _ => by dirty))
    · rename_i hch
      obtain ⟨rfl, rfl⟩ := pure_inv h
      have hl := hC.same_line hE (c := '[') (fun x y ht => by
        have := ht.text; rw [hty] at this; exact this) (by decide) (by rw [hty]; simp) (by rw [h2]; simp)
      rw [pos_plus_one hl (Decidable.of_not_not hch)] at w2
      exact ⟨rfl, w2⟩
  · obtain ⟨rfl, rfl⟩ := pure_inv h
    exact .inl ⟨rfl, rfl⟩

theorem headerKey_sound (hE : EnvOk E) (hC : Cx E s) {r : Option Key × Bool}
    (h : headerKey E s = .ok r s') (he : s'.errors = []) :
    ∃ k ts, r = (some k, false) ∧ Went E s ts s' ∧ KeyToks ts (keyNames k) := by
  unfold headerKey at h
  obtain ⟨kr, s1, h1, h, he1⟩ := bind_clean h he (by dirty)
  have hk := parseKey_sound hE hC h1 he1
  clear h1
  split at h
  · obtain ⟨rfl, rfl⟩ := pure_inv h
    obtain ⟨ts, ns, a1, a2, a3⟩ := hk
    refine ⟨_, ts, rfl, a1, ?_⟩
    rw [a3]; exact a2
  · exact hk.elim
  · exact absurd he (bind_error_dirty h (fun _ => by dirty))

theorem closeHeader_sound (hE : EnvOk E) (hC : Cx E s) {l : Pos} {la : Option Pos}
    {q : Option Pos × Option Pos} (h : closeHeader E l la false s = .ok q s') (he : s'.errors = []) :
    (la = none ∧ ∃ p, Went E s [(.punct ']', p)] s') ∨
    (la.isSome = true ∧ ∃ p, Went E s [(.punct ']', p), (.punct ']', p.plus 1)] s') := by
  unfold closeHeader at h
  rw [if_neg (by simp)] at h
  obtain ⟨a, s1, h1, h, he1⟩ := bind_clean h he (by
    dirty
    all_goals exact dirty_closeTable _ _)
  obtain ⟨b, s2, h2, h⟩ := bind_inv h
  obtain ⟨rfl, rfl⟩ := pure_inv h
  cases la with
  | none =>
    left
    obtain ⟨rfl, rfl⟩ := pure_inv h1
    unfold closeTable at h2
    rw [bind_peek] at h2
    split at h2
    · rename_i hty
      rw [bind_next] at h2
      unfold checkSpace at h2
      rw [bind_pure] at h2
      obtain ⟨rfl, rfl⟩ := pure_inv h2
      have w := hC.step hE (by rw [hty]; simp)
      rw [vw_sr hty] at w
      exact ⟨rfl, _, w⟩
    · obtain ⟨_, s3, -, h2⟩ := bind_inv h2
      dsimp only at h2
      rw [if_neg (by simp)] at h2
      exact absurd he (bind_error_dirty h2 (fun _ => by dirty))
  | some lp =>
    right
    refine ⟨rfl, ?_⟩
    unfold closeArray at h1
    dsimp only at h1
    rw [bind_peek] at h1
    split at h1
    · rename_i hty1
      rw [bind_next] at h1
      obtain ⟨rfl, rfl⟩ := pure_inv h1
      have w1 := hC.step hE (by rw [hty1]; simp)
      rw [vw_sr hty1] at w1
      unfold closeTable at h2
      rw [bind_peek] at h2
      split at h2
      · rename_i hty2
        rw [bind_next] at h2
        have w2 := w1.cx.step hE (by rw [hty2]; simp)
        rw [vw_sr hty2] at w2
        unfold checkSpace at h2
        dsimp only at h2
        split at h2
        · exact absurd he (bind_error_dirty h2 (fun _ => by dirty))
        · rename_i hch
          rw [bind_pure] at h2
          obtain ⟨rfl, rfl⟩ := pure_inv h2
          have hl := hC.same_line hE (c := ']') (fun x y ht => by
            have := ht.text; rw [hty1] at this; exact this) (by decide) (by rw [hty1]; simp)
            (by rw [hty2]; simp)
          rw [pos_plus_one hl (Decidable.of_not_not hch)] at w2
          exact ⟨_, w1.trans w2⟩
      · obtain ⟨_, s3, -, h2⟩ := bind_inv h2
        dsimp only at h2
        rw [if_pos (by simp)] at h2
        exact absurd he (bind_error_dirty h2 (fun _ => by dirty))
    · obtain ⟨_, s3, -, h1⟩ := bind_inv h1
      exact absurd he1 (bind_error_dirty h1 (fun _ => by dirty))

theorem checkNewline_sound {req b : Bool} {m : Nat} {t : Token} (h : checkNewline E req m t s = .ok b s')
    (he : s'.errors = []) : req = false ∧ b = true ∧ s' = s := by
  unfold checkNewline at h
  split at h
  · rw [bind_mark] at h
    split at h
    · exact absurd he (bind_error_dirty h (fun _ => by dirty))
    · obtain ⟨_, s1, -, h⟩ := bind_inv h
      obtain ⟨_, s2, h2, h⟩ := bind_inv h
      obtain ⟨-, rfl⟩ := pure_inv h
      exact absurd he (expectedNewline_clean h2)
  · rename_i hr
    obtain ⟨rfl, rfl⟩ := pure_inv h
    exact ⟨by simpa using hr, rfl, rfl⟩

/-- An expression has been read. -/
structure ExprRead (E : Env) (b : Bool) (r : RootSt) (s : PS) (r' : RootSt) (s' : PS) : Prop where
  before : r.newlineRequired = false
  after : r'.newlineRequired = true
  read : ∃ ts i, Went E s ts s' ∧ Expr b ts i ∧ its r'.asts = its r.asts ++ [i] ∧
    RI (b || hasHeader [i]) r'.asts

theorem rootHeader_sound (hE : EnvOk E) (hC : Cx E s) (hty : (pk E s).ty = .squareLeft) {r r' : RootSt}
    {b : Bool} (hR : RI b r.asts) (h : rootHeader E (pk E s) r s = .ok r' s') (he : s'.errors = []) :
    ExprRead E b r s r' s' := by
  unfold rootHeader at h
  rw [bind_mark, bind_next] at h
  dsimp only at h
  have w1 := hC.step hE (by rw [hty]; simp)
  rw [vw_sl hty] at w1
  obtain ⟨la, s2, h2, h, he2⟩ := bind_clean h he (by
    have := @dirty_headerKey E
    dirty
    all_goals first
      | exact dirty_closeHeader _ _ _ | exact dirty_checkNewline _ _ _
      | exact (quiet_finishHeader _ _ _ _ _ _).dirty)
  obtain ⟨ks, s3, h3, h, he3⟩ := bind_clean h he (by
    dirty
    all_goals first
      | exact dirty_closeHeader _ _ _ | exact dirty_checkNewline _ _ _
      | exact (quiet_finishHeader _ _ _ _ _ _).dirty)
  have hw2 : ∃ ts, Went E s.adv ts s2 ∧ (la = none ∧ ts = [] ∨
      la.isSome = true ∧ ts = [(.punct '[', (pk E s).start.plus 1)]) := by
    rcases openArray_sound hE hC hty h2 he2 with ⟨rfl, rfl⟩ | ⟨h1, h2⟩
    · exact ⟨[], .refl w1.cx, .inl ⟨rfl, rfl⟩⟩
    · exact ⟨_, h2, .inr ⟨h1, rfl⟩⟩
  obtain ⟨ts2, w2, hla⟩ := hw2
  obtain ⟨k, kt, rfl, w3, hk⟩ := headerKey_sound hE w2.cx h3 he3
  dsimp only at h
  obtain ⟨q, s4, h4, h, he4⟩ := bind_clean h he (by
    dirty
    all_goals first
      | exact dirty_checkNewline _ _ _
      | exact (quiet_finishHeader _ _ _ _ _ _).dirty)
  have hcl := closeHeader_sound hE w3.cx h4 he4
  obtain ⟨go, s5, h5, h6, he5⟩ := bind_clean h he (by
    dirty
    all_goals exact (quiet_finishHeader _ _ _ _ _ _).dirty)
  clear h
  obtain ⟨hreq, rfl, rfl⟩ := checkNewline_sound h5 he5
  rw [if_pos rfl] at h6
  obtain ⟨e1, e2, e3, e4⟩ := finishHeader_items hR h6
  refine ⟨hreq, e2, ?_⟩
  rcases hla with ⟨rfl, rfl⟩ | ⟨hs, rfl⟩
  · rcases hcl with ⟨-, p, w4⟩ | ⟨h, -⟩
    · have w5 : Went E s5 [] s' := ⟨by simp [V, e1], w4.cx.of_rest e1⟩
      have ht := w1.trans (w2.trans (w3.trans (w4.trans w5)))
      simp only [List.append_nil, List.nil_append, List.singleton_append] at ht
      refine ⟨_, .table (keyNames k), ht, ?_, ?_, ?_⟩
      · exact .table hk
      · simpa [headerNames] using e4
      · have : (b || hasHeader [Item.table (keyNames k)]) = true := by simp [hasHeader]
        rw [this]; exact e3
    · cases h
  · rcases hcl with ⟨rfl, -⟩ | ⟨-, p, w4⟩
    · cases hs
    · have w5 : Went E s5 [] s' := ⟨by simp [V, e1], w4.cx.of_rest e1⟩
      have ht := w1.trans (w2.trans (w3.trans (w4.trans w5)))
      simp only [List.append_nil, List.nil_append, List.singleton_append, List.cons_append] at ht
      refine ⟨_, .arrayTable (keyNames k), ht, ?_, ?_, ?_⟩
      · exact .arrayTable hk
      · simpa [headerNames, hs] using e4
      · have : (b || hasHeader [Item.arrayTable (keyNames k)]) = true := by simp [hasHeader]
        rw [this]; exact e3

/-! ## Assignments -/

theorem looseComments_items {r : RootSt} {cs : List Comment} {b : Bool} {o : List Ast × Nat} (hR : RI b r.asts)
    (h : looseComments r cs s = .ok o s') : s'.rest = s.rest ∧ RI b o.1 ∧ its o.1 = its r.asts ∧
      o.2 = (if b then 1 else 0) := by
  have hs := (still_loose r cs).out _ _ _ h
  refine ⟨hs, ?_⟩
  have hb : ∀ {a : Ast}, r.asts.getLast? = some a → isTab a = true → b = true := by
    intro a ha ht
    rcases hR.last with ⟨h, -⟩ | ⟨-, h⟩
    · exact h
    · rw [h a (List.mem_of_getLast? ha)] at ht; cases ht
  unfold looseComments at h
  generalize ha : r.asts.getLast? = o' at h
  split at h
  · rename_i t
    obtain ⟨c, s1, -, h⟩ := bind_inv h
    obtain ⟨rfl, rfl⟩ := pure_inv h
    have hsp := getLast_split ha
    refine ⟨?_, ?_, by rw [hb ha rfl]; rfl⟩
    · rw [hsp] at hR
      exact hR.change rfl rfl
    · dsimp only
      rw [its_append]
      conv => rhs; rw [hsp]
      rw [its_append]
      rfl
  · rename_i t
    obtain ⟨c, s1, -, h⟩ := bind_inv h
    obtain ⟨rfl, rfl⟩ := pure_inv h
    have hsp := getLast_split ha
    refine ⟨?_, ?_, by rw [hb ha rfl]; rfl⟩
    · rw [hsp] at hR
      exact hR.change rfl rfl
    · dsimp only
      rw [its_append]
      conv => rhs; rw [hsp]
      rw [its_append]
      rfl
  · rename_i n1 n2
    obtain ⟨rfl, rfl⟩ := pure_inv h
    have hbf : b = false := by
      rcases hR.last with ⟨h, a, x, hx, ht⟩ | ⟨h, -⟩
      · have hl : r.asts.getLast? = some x := by rw [hx]; simp
        cases x with
        | table t => exact absurd (ha.symm.trans hl) (n1 t)
        | array t => exact absurd (ha.symm.trans hl) (n2 t)
        | assignment _ => cases ht
        | comment _ => cases ht
      · exact h
    subst hbf
    refine ⟨hR.comments _, ?_, rfl⟩
    dsimp only
    rw [its_append, its_comments, List.append_nil]

theorem pushAssignment_items {asts : List Ast} {b : Bool} (hR : RI b asts) (a : ToplevelAssignment) :
    RI b (pushAssignment asts a) ∧ its (pushAssignment asts a) = its asts ++ [assignmentItem a] := by
  unfold pushAssignment
  split
  · rename_i t ha
    have hsp := getLast_split ha
    constructor
    · rw [hsp] at hR
      exact hR.change rfl rfl
    · rw [its_append]
      conv => rhs; rw [hsp]
      rw [its_append, its_one, its_one]
      simp [astItems]
  · rename_i t ha
    have hsp := getLast_split ha
    constructor
    · rw [hsp] at hR
      exact hR.change rfl rfl
    · rw [its_append]
      conv => rhs; rw [hsp]
      rw [its_append, its_one, its_one]
      simp [astItems]
  · rename_i n1 n2
    have hbf : b = false := by
      rcases hR.last with ⟨h, a, x, hx, ht⟩ | ⟨h, -⟩
      · cases x with
        | table t => exact absurd (by rw [hx]; simp) (n1 t)
        | array t => exact absurd (by rw [hx]; simp) (n2 t)
        | assignment _ => cases ht
        | comment _ => cases ht
      · exact h
    subst hbf
    refine ⟨hR.assign _, ?_⟩
    rw [its_append, its_one]
    rfl

theorem rootValue_sound (hE : EnvOk E) (hC : Cx E s) {r r' : RootSt} {key : Key} {eq : Pos}
    {b : Bool} (hR : RI b r.asts) (h : rootValue E r key eq s = .ok r' s') (he : s'.errors = []) :
    r'.newlineRequired = true ∧ ∃ ts v, Went E s ts s' ∧ Val (depthLimit b) ts v ∧ RI b r'.asts ∧
      its r'.asts = its r.asts ++ [.keyVal (keyNames key) v] := by
  unfold rootValue at h
  obtain ⟨pos, s1, h1, h⟩ := bind_inv h
  have w1 := hC.still (still_findAssoc _ _) h1
  obtain ⟨o, s2, h2, h⟩ := bind_inv h
  have w2 := w1.cx.still (still_loose _ _) h2
  obtain ⟨-, o1, o2, o3⟩ := looseComments_items hR h2
  clear h2
  obtain ⟨asts, level⟩ := o
  dsimp only at h o1 o2 o3
  obtain ⟨cm, s3, h3, h⟩ := bind_inv h
  have w3 := w2.cx.still (still_storeComments _ _ _) h3
  obtain ⟨rv, s4, h4, h, he4⟩ := bind_clean h he (by dirty)
  have hv := (parseValue_sound hE _ _).2 _ _ _ w3.cx h4 he4
  clear h4
  split at h
  · rename_i val
    obtain ⟨ts, w4, hv⟩ := hv
    rw [bind_nextId] at h
    obtain ⟨cm2, -, h⟩ := bind_lift_inv h
    obtain ⟨rfl, rfl⟩ := pure_inv h
    obtain ⟨p1, p2⟩ := pushAssignment_items o1 ⟨cm2, key, eq, val⟩
    refine ⟨rfl, ts, valueOf val, by simpa using w1.trans (w2.trans (w3.trans w4)), ?_, p1, ?_⟩
    · have : 100 - level = depthLimit b := by rw [o3]; cases b <;> rfl
      rw [← this]; exact hv
    · rw [p2, o2]; rfl
  · exact absurd he (bind_error_dirty h (fun _ => by dirty))

theorem rootAssignment_sound (hE : EnvOk E) (hC : Cx E s) {r r' : RootSt} {b : Bool} (hR : RI b r.asts)
    (hnn : (pk E s).ty ≠ .eof)
    (h : rootAssignment E (pk E s) r s = .ok r' s') (he : s'.errors = []) : ExprRead E b r s r' s' := by
  unfold rootAssignment at h
  rw [bind_mark] at h
  obtain ⟨kr, s1, h1, h, he1⟩ := bind_clean h he (by
    dirty
    all_goals first
      | exact dirty_rootEq _ _ _ _ | exact dirty_expectedNewline _ _)
  have hk := parseKey_sound hE hC h1 he1
  clear h1
  split at h
  · rename_i key
    obtain ⟨kt, ns, w1, k1, k2⟩ := hk
    unfold rootEq at h
    rw [bind_peek] at h
    split at h
    · rename_i heq
      rw [bind_next] at h
      have w2 := w1.cx.step hE (by rw [heq]; simp)
      rw [vw_eq heq] at w2
      obtain ⟨go, s3, h3, h, he3⟩ := bind_clean h he (by
        dirty
        all_goals exact dirty_rootValue _ _ _)
      obtain ⟨hreq, rfl, rfl⟩ := checkNewline_sound h3 he3
      rw [if_pos rfl] at h
      obtain ⟨a1, ts, v, a2, a3, a4, a5⟩ := rootValue_sound hE w2.cx hR h he
      refine ⟨hreq, a1, _, .keyVal (keyNames key) v, w1.trans (w2.trans a2), ?_, a5, by simpa [hasHeader] using a4⟩
      rw [k2]
      exact .keyVal k1 a3
    · obtain ⟨_, s2, -, h⟩ := bind_inv h
      split at h
      · obtain ⟨_, s3, h3, h⟩ := bind_inv h
        obtain ⟨-, rfl⟩ := pure_inv h
        exact absurd he (expectedNewline_clean h3)
      · obtain ⟨f, s3, -, h⟩ := bind_inv h
        exact absurd he (bind_error_dirty h (fun _ => by dirty))
  · exact hk.elim
  · obtain ⟨_, s2, -, h⟩ := bind_inv h
    split at h
    · obtain ⟨_, s3, h3, h⟩ := bind_inv h
      obtain ⟨-, rfl⟩ := pure_inv h
      exact absurd he (expectedNewline_clean h3)
    · exact absurd he (bind_error_dirty h (fun _ => by dirty))

/-! ## Documents -/

/-- What follows an expression: the rest of the line, and further lines. -/
def After (b : Bool) (ts : List Tok) (is : List Item) : Prop :=
  ∃ c, (c = [] ∨ ∃ x p, c = [(.comment x, p)]) ∧
    ((ts = c ∧ is = []) ∨ ∃ p ts', ts = c ++ (.newline, p) :: ts' ∧ Doc b ts' is)

theorem After.expr {b : Bool} {ts ts' : List Tok} {i : Item} {is : List Item}
    (hx : Expr b ts i) (h : After (b || hasHeader [i]) ts' is) : Doc b (ts ++ ts') (i :: is) := by
  obtain ⟨c, hc, h⟩ := h
  have hl : Line b (ts ++ c) [i] := by
    rcases hc with rfl | ⟨x, p, rfl⟩
    · rw [List.append_nil]; exact .expr hx
    · exact .exprComment hx
  rcases h with ⟨rfl, rfl⟩ | ⟨p, ts'', rfl, hd⟩
  · exact .last hl
  · have := Doc.more (p := p) hl hd
    simpa using this

theorem rootLoop_sound (hE : EnvOk E) : ∀ (n : Nat) {b : Bool} {s : PS} {r r' : RootSt}, Cx E s →
    RI b r.asts → rootLoop E n r s = .ok r' s' → s'.errors = [] →
    ∃ is, its r'.asts = its r.asts ++ is ∧ (∃ b', RI b' r'.asts) ∧ V E s' = [] ∧
      (r.newlineRequired = false → Doc b (V E s) is) ∧
      ((r.newlineRequired = true ∨ V E s = [] ∨ ∃ p t, V E s = (.newline, p) :: t) → After b (V E s) is) := by
  intro n
  induction n with
  | zero => intro b s r r' _ _ h; cases h
  | succ n ih =>
    intro b s r r' hC hR h he
    unfold rootLoop at h
    rw [bind_peek] at h
    have hexpr : ∀ {r1 : RootSt} {s1 : PS}, ExprRead E b r s r1 s1 → rootLoop E n r1 s1 = .ok r' s' →
        (∀ ts, V E s ≠ [] ∧ ∀ p, V E s ≠ (.newline, p) :: ts) →
        ∃ is, its r'.asts = its r.asts ++ is ∧ (∃ b', RI b' r'.asts) ∧ V E s' = [] ∧
        (r.newlineRequired = false → Doc b (V E s) is) ∧
        ((r.newlineRequired = true ∨ V E s = [] ∨ ∃ p t, V E s = (.newline, p) :: t) → After b (V E s) is) := by
      intro r1 s1 hx hrun hne
      obtain ⟨ts, i, w, hx1, hx2, hx3⟩ := hx.read
      obtain ⟨is, c1, c2, c3, -, c5⟩ := ih w.cx hx3 hrun he
      refine ⟨i :: is, by rw [c1, hx2]; simp, c2, c3, fun _ => ?_, ?_⟩
      · rw [w.view]
        exact (c5 (.inl hx.after)).expr hx1
      · rintro (h | h | ⟨p, t, h⟩)
        · rw [hx.before] at h; cases h
        · exact absurd h (hne []).1
        · exact absurd h ((hne t).2 p)
    have hne : ∀ {ty : TokenType}, (pk E s).ty = ty → ty ≠ .eof → ty ≠ .newline →
        ∀ ts, V E s ≠ [] ∧ ∀ p, V E s ≠ (.newline, p) :: ts := by
      intro ty hty h1 h2 ts
      constructor
      · intro hv
        exact h1 (hty ▸ pk_nil hE hv)
      · intro p hv
        exact h2 (hty ▸ (hC.view hv).1)
    generalize hty : (pk E s).ty = ty at h
    split at h
    · obtain ⟨r1, s1, h1, h, he1⟩ := bind_clean h he (fun _ => dirty_rootLoop _ _)
      exact hexpr (rootHeader_sound hE hC hty hR h1 he1) h (hne hty (by simp) (by simp))
    · obtain ⟨r1, s1, h1, h⟩ := bind_inv h
      obtain ⟨⟨x, p, w⟩, c1, c2, c3⟩ := rootComment_went hE hC hty hR h1
      obtain ⟨is, d1, d2, d3, d4, d5⟩ := ih w.cx c1 h he
      have hnl : V E s1 = [] ∨ ∃ p t, V E s1 = (.newline, p) :: t := hC.comment w.view
      have hA := d5 (.inr hnl)
      have hV : V E s = (.comment x, p) :: V E s1 := w.view
      have hA' : After b (V E s) is := by
        rcases hA with ⟨c, hc, ⟨e1, e2⟩ | ⟨q, t, e1, e2⟩⟩
        · rcases hnl with hn | ⟨q, t, hn⟩
          · exact ⟨[(.comment x, p)], .inr ⟨x, p, rfl⟩, .inl ⟨by rw [hV, hn], e2⟩⟩
          · rcases hc with rfl | ⟨_, _, rfl⟩
            · rw [e1] at hn; cases hn
            · rw [e1] at hn; cases hn
        · rcases hc with rfl | ⟨_, _, rfl⟩
          · exact ⟨[(.comment x, p)], .inr ⟨x, p, rfl⟩, .inr ⟨q, t, by rw [hV, e1]; rfl, e2⟩⟩
          · rcases hnl with hn | ⟨q, t, hn⟩
            · rw [e1] at hn; cases hn
            · rw [e1] at hn; cases hn
      refine ⟨is, by rw [d1, c2], d2, d3, fun hr => ?_, fun _ => hA'⟩
      rcases hA' with ⟨c, hc, ⟨h1, h2⟩ | ⟨q, t, h1, h2⟩⟩
      · rw [h1, h2]
        refine .last ?_
        rcases hc with rfl | ⟨_, _, rfl⟩
        · exact .blank
        · exact .comment
      · rw [h1]
        have hl : Line b c [] := by
          rcases hc with rfl | ⟨_, _, rfl⟩
          · exact .blank
          · exact .comment
        have := Doc.more (p := q) hl (by simpa [hasHeader] using h2)
        simpa using this
    · rw [bind_next] at h
      have w := hC.step hE (by rw [hty]; simp)
      rw [vw_nl hty] at w
      obtain ⟨is, d1, d2, d3, d4, d5⟩ := ih (r := { r with newlineRequired := false }) w.cx hR h he
      have hV : V E s = (.newline, (pk E s).start) :: V E s.adv := w.view
      have hd := d4 rfl
      refine ⟨is, d1, d2, d3, fun _ => ?_, fun _ => ⟨[], .inl rfl, .inr ⟨_, _, hV, hd⟩⟩⟩
      rw [hV]
      have := Doc.more (p := (pk E s).start) (b := b) .blank (by simpa [hasHeader] using hd)
      simpa using this
    · obtain ⟨rfl, rfl⟩ := pure_inv h
      have hv := hC.eof hty
      refine ⟨[], by simp, ⟨b, hR⟩, hv, fun _ => ?_, fun _ => ?_⟩
      · rw [hv]; exact .last .blank
      · rw [hv]; exact ⟨[], .inl rfl, .inl ⟨rfl, rfl⟩⟩
    · rename_i n1 n2 n3 n4
      obtain ⟨r1, s1, h1, h, he1⟩ := bind_clean h he (fun _ => dirty_rootLoop _ _)
      exact hexpr (rootAssignment_sound hE hC hR (by rw [hty]; exact n4) h1 he1) h (hne hty n4 n3)

end Verif.Toml
