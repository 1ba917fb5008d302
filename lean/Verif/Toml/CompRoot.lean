import Verif.Toml.CompVal
import Verif.Toml.ParseTop

/-! # What follows the grammar is read without diagnostics: documents -/

namespace Verif.Toml
open Verif Verif.Spec.Toml

variable {α β σ : Type} {E : Env} {s s' s1 s2 : PS} {pre : Str} {toks : List Token} {es0 : List Error}

theorem Sat.run {r : Run α} {Q : α → PS → Prop} (h : Sat False r Q) : ∃ a s, r = .ok a s ∧ Q a s := by
  cases r with
  | ok a s => exact ⟨a, s, rfl, h⟩
  | panic => exact h.elim
  | timeout => exact h.elim

theorem Good.cx (hG : Good E toks es0 pre s) : Cx E s := ⟨pre, hG.chain, hG.com⟩

theorem Cx.ne_eof (hC : Cx E s) {t : Tok} {r : List Tok} (h : V E s = t :: r) : (pk E s).ty ≠ .eof := by
  intro he
  rw [hC.eof he] at h
  cases h

/-! ## Tokens on one line -/

/-- A token other than a line break, a comment and a string over several lines. -/
def OneLine (v : View) : Prop :=
  match v with
  | .string _ lit _ => '\n' ∉ lit
  | .word _ => True
  | .punct c => c ≠ '?'
  | _ => False

theorem TokAt.oneLine {t : Token} {x y : Str} (h : TokAt E t x y) (ho : OneLine (vw E t).1) : '\n' ∉ y := by
  have ht := h.text
  split at ht
  · rename_i id he
    obtain ⟨q, txt, o, hs, -⟩ := ht
    by_cases hc : o.endChar = 0
    · rw [vw_unclosed he hs hc] at ho
      exact absurd rfl ho
    · rw [vw_string he hs hc] at ho
      exact ho
  · exact ht.2.1
  · rename_i id he
    obtain ⟨txt, hs, -⟩ := ht
    rw [vw_comment he hs] at ho
    exact ho.elim
  · subst ht; decide
  · subst ht; decide
  · subst ht; decide
  · subst ht; decide
  · subst ht; decide
  · subst ht; decide
  · subst ht; decide
  · rename_i he
    rw [vw_nl he] at ho
    exact ho.elim
  · exact ht.elim

/-- The place of a token behind tokens on one line. -/
theorem Ch.ahead (hE : EnvEof E) : ∀ (ts : List Tok) {pre : Str} {s : PS} {v : View} {p : Pos} {r : List Tok},
    Ch E pre s → V E s = ts ++ (v, p) :: r → (∀ t ∈ ts, OneLine t.1) →
    ∃ z, p = posOf (pre ++ z) ∧ '\n' ∉ z := by
  intro ts
  induction ts with
  | nil =>
    intro pre s v p r hC hv _
    obtain ⟨g, y, hN⟩ := hC.next hE (hC.cx.ne_eof hv)
    obtain ⟨-, hp, -⟩ := hC.cx.view hv
    exact ⟨g, by rw [← hp, hN.tok.start], hN.blank.nonl⟩
  | cons t ts ih =>
    intro pre s v p r hC hv ho
    obtain ⟨g, y, hN⟩ := hC.next hE (hC.cx.ne_eof hv)
    have hvw := hN.view
    rw [hv] at hvw
    simp only [List.cons_append, List.cons.injEq] at hvw
    obtain ⟨ht, hr⟩ := hvw
    have hy := hN.tok.oneLine (by rw [← ht]; exact ho t (by simp))
    obtain ⟨z, hz, hz'⟩ := ih hN.ch hr.symm (fun t ht => ho t (by simp [ht]))
    refine ⟨g ++ y ++ z, by rw [hz]; simp, ?_⟩
    simp only [List.mem_append, not_or]
    exact ⟨⟨hN.blank.nonl, hy⟩, hz'⟩

/-- Single-line strings do not have line breaks. -/
def LineStr (ts : List Tok) : Prop :=
  ∀ t ∈ ts, ∀ q lit txt, t.1 = .string q lit txt → isMulti q = false → '\n' ∉ lit

theorem LineStr.mono {a b : List Tok} (h : LineStr b) (hs : ∀ t ∈ a, t ∈ b) : LineStr a :=
  fun t ht => h t (hs t ht)

theorem keyPart_oneLine {v : View} {p : Pos} {n : Str} {ts : List Tok} (hp : KeyPart v n) (hl : LineStr ts)
    (hm : (v, p) ∈ ts) : OneLine v := by
  cases hp with
  | bare _ => trivial
  | quoted hq => exact hl _ hm _ _ _ rfl hq

theorem key_oneLine {ts : List Tok} {ns : List Str} (hk : KeyToks ts ns) (hl : LineStr ts) :
    ∀ t ∈ ts, OneLine t.1 := by
  induction hk with
  | @one v p n hp =>
    intro t ht
    rw [List.mem_singleton.1 ht]
    exact keyPart_oneLine (p := p) hp hl (by simp)
  | @dot v p q n ts ns hp hk ih =>
    intro t ht
    simp only [List.mem_cons] at ht
    rcases ht with rfl | rfl | ht
    · exact keyPart_oneLine (p := p) hp hl (by simp)
    · exact (show (_:Char) ≠ _ by decide)
    · exact ih (hl.mono (by simp +contextual)) t ht

/-! ## Headers -/

theorem parOffset_ok {x z : Str} (hz : '\n' ∉ z) (hne : z ≠ []) :
    ∃ o, parOffset ovf (posOf x) (some (posOf (x ++ z))) = some o := by
  rw [posOf_plus hz]
  have : 0 < blen z := by
    cases z with
    | nil => exact absurd rfl hne
    | cons c z => rw [blen_cons]; have := Char.utf8Size_pos c; omega
  exact ⟨_, parOffset_right (by show (posOf x).char < (posOf x).char + blen z; omega)⟩

theorem finishHeader_ok {r : RootSt} {l : Pos} {la : Option Pos} {k : Option Key}
    {q : Option Pos × Option Pos}
    (hs : r.prevComments.Pairwise (fun a b => a.span.start.line < b.span.start.line))
    (hl : ∀ c ∈ r.prevComments, c.span.start.line < l.line)
    (h1 : ∃ o, parOffset ovf l q.1 = some o) (h2 : ∃ o, parOffset ovf l q.2 = some o) :
    ∃ r' s', finishHeader ovf r l la k q s = .ok r' s' := by
  unfold finishHeader
  obtain ⟨n, hn⟩ := findAssociated_eq (β := RootSt) hs hl
  rw [hn]
  obtain ⟨rg, new, a1, a2, a3, a4⟩ := storeComments_eq (β := RootSt) (pos := .above)
    (cs := r.prevComments.drop n) (level := 0) (s := s)
  rw [a4]
  obtain ⟨o1, h1⟩ := h1
  obtain ⟨o2, h2⟩ := h2
  cases la with
  | some la =>
    have h : ArrayHeader.new ovf (l, la) k q = some ⟨(l, la), k, (o1, o2)⟩ := by simp [ArrayHeader.new, h1, h2]
    exact ⟨_, _, bind_lift _ _ h⟩
  | none =>
    have h : TableHeader.new ovf l k q.2 = some ⟨l, k, o2⟩ := by simp [TableHeader.new, h2]
    exact ⟨_, _, bind_lift _ _ h⟩

/-- The outcome of an expression. -/
structure ExprDone (E : Env) (b : Bool) (r : RootSt) (s : PS) (ts : List Tok) (i : Item) (r' : RootSt)
    (s' : PS) : Prop where
  ate : Ate E s ts s'
  after : r'.newlineRequired = true
  its : its r'.asts = its r.asts ++ [i]
  ri : RI (b || hasHeader [i]) r'.asts

theorem key_not_sl (hC : Cx E s) {kt : List Tok} {k : List Str} {r : List Tok} (hk : KeyToks kt k)
    (hv : V E s = kt ++ r) : (∃ id, (pk E s).ty = .literalOrIdent id) ∨ ∃ id, (pk E s).ty = .string id := by
  cases hk with
  | one hp =>
    have h := (hC.view hv).1
    cases hp with
    | bare _ => obtain ⟨id, h, -⟩ := h; exact .inl ⟨id, h⟩
    | quoted _ => obtain ⟨id, _, _, h, -⟩ := h; exact .inr ⟨id, h⟩
  | dot hp =>
    have h := (hC.view hv).1
    cases hp with
    | bare _ => obtain ⟨id, h, -⟩ := h; exact .inl ⟨id, h⟩
    | quoted _ => obtain ⟨id, _, _, h, -⟩ := h; exact .inr ⟨id, h⟩

theorem noDot_sr (p : Pos) (r : List Tok) : NoDot ((.punct ']', p) :: r) := by
  intro q r' h
  simp at h

theorem headerKey_complete (hE : EnvEof E) (hG : Good E toks es0 pre s) {kt : List Tok} {k : List Str}
    {r : List Tok} (hk : KeyToks kt k) (hv : V E s = kt ++ r) (hd : NoDot r) :
    ∃ key s', headerKey E s = .ok (some key, false) s' ∧ keyNames key = k ∧ Ate E s kt s' := by
  obtain ⟨res, s', h, -⟩ := (parseKey_post (P := False) hG).run
  obtain ⟨key, rfl, h2, h3⟩ := parseKey_complete hE hG.cx hk hv hd h
  refine ⟨key, s', ?_, h2, h3⟩
  unfold headerKey
  rw [bind_ok h]
  rfl

theorem closeTable_complete (hC : Cx E s) {l q : Pos} {ra : Option Pos} {rest : List Tok}
    (hv : V E s = (.punct ']', q) :: rest) (hs : ∀ p, ra = some p → p.char + 1 = q.char) :
    closeTable E l ra s = .ok (some q) s.adv := by
  unfold closeTable
  rw [bind_peek, if_pos (ty_sr hC hv), bind_next]
  have hq := (hC.view hv).2.1
  have : checkSpace ra (pk E s) s.adv = .ok () s.adv := by
    unfold checkSpace
    split
    · rename_i a
      rw [if_neg (by rw [hq]; simpa using hs a rfl)]; rfl
    · rfl
  rw [bind_ok this, hq]
  rfl

theorem closeHeader_table (hC : Cx E s) {l q : Pos} {rest : List Tok}
    (hv : V E s = (.punct ']', q) :: rest) :
    closeHeader E l none false s = .ok (none, some q) s.adv := by
  unfold closeHeader
  rw [if_neg (by simp)]
  have : closeArray E none s = .ok none s := rfl
  rw [bind_ok this, bind_ok (closeTable_complete hC hv (by simp))]
  rfl

theorem closeHeader_array (hC : Cx E s) {l la q : Pos} {rest : List Tok}
    (hv : V E s = (.punct ']', q) :: (.punct ']', q.plus 1) :: rest) :
    closeHeader E l (some la) false s = .ok (some q, some (q.plus 1)) s.adv.adv := by
  have w := hC.eat hv
  have hv1 := w.left (r := (.punct ']', q.plus 1) :: rest) hv
  unfold closeHeader
  rw [if_neg (by simp)]
  have : closeArray E (some la) s = .ok (some q) s.adv := by
    unfold closeArray
    dsimp only
    rw [bind_peek, if_pos (ty_sr hC hv), bind_next, (hC.view hv).2.1]
    rfl
  rw [bind_ok this, bind_ok (closeTable_complete w.cx hv1 (by intro p hp; cases hp; rfl))]
  rfl

theorem openArray_none (hE : EnvEof E) (hC : Cx E s) {l : Pos} {kt rest : List Tok} {k : List Str}
    (hk : KeyToks kt k) (hv : V E s = kt ++ rest) : openArray E l s = .ok none s := by
  unfold openArray
  rw [bind_peek, if_neg]
  · rfl
  · rcases key_not_sl hC hk hv with ⟨id, h⟩ | ⟨id, h⟩ <;> rw [h] <;> simp

theorem openArray_some (hC : Cx E s) {l : Pos} {rest : List Tok}
    (hv : V E s = (.punct '[', l.plus 1) :: rest) :
    openArray E l s = .ok (some (l.plus 1)) s.adv := by
  unfold openArray
  rw [bind_peek, if_pos (ty_sl hC hv), bind_next, (hC.view hv).2.1, if_neg (by simp [Pos.plus])]
  rfl

theorem checkNewline_false {m : Nat} {t : Token} : checkNewline E false m t s = .ok true s := rfl

/-- A header behind its brackets. -/
theorem header_done {r : RootSt} {x : Str} (hI : RootInv E toks es0 pre s r) (hst : ∀ c ∈ r.prevComments, c.span.start.line < (posOf pre).line)
    (hpx : pre <+: x) {b : Bool} (hR : RI b r.asts) {la : Option Pos} {key : Key} {k : List Str}
    (hk : keyNames key = k) {q : Option Pos × Option Pos} {ts : List Tok} (w : Ate E s ts s1)
    (h1 : ∃ o, parOffset E.ovf (posOf x) q.1 = some o) (h2 : ∃ o, parOffset E.ovf (posOf x) q.2 = some o) :
    ∃ r' s', finishHeader E.ovf r (posOf x) la (some key) q s1 = .ok r' s' ∧
      ExprDone E b r s ts (if la.isSome then .arrayTable k else .table k) r' s' := by
  obtain ⟨r', s', hf⟩ := finishHeader_ok (s := s1) (la := la) (k := some key) hI.sorted
    (fun c hc => Nat.lt_of_lt_of_le (hst c hc) (posOf_line_mono hpx)) h1 h2
  obtain ⟨f1, f2, f3, f4⟩ := finishHeader_items hR hf
  have he := (quiet_finishHeader _ _ _ _ _ _).out _ _ _ hf
  refine ⟨r', s', hf, ⟨⟨by rw [w.view]; simp [V, f1], w.cx.of_rest f1⟩, by rw [he, w.errs]⟩, f2, ?_, ?_⟩
  · rw [f4]; simp [headerNames, hk]
  · have : (b || hasHeader [if la.isSome = true then Item.arrayTable k else Item.table k]) = true := by
      cases la <;> simp [hasHeader]
    rw [this]; exact f3

theorem rootHeader_table (hE : EnvEof E) (hG : Good E toks es0 pre s) {r : RootSt}
    (hI : RootInv E toks es0 pre s r) {b : Bool} (hR : RI b r.asts) (hr : r.newlineRequired = false)
    (hL : LineStr (V E s)) {p q : Pos} {kt rest : List Tok} {k : List Str} (hk : KeyToks kt k)
    (hv : V E s = (.punct '[', p) :: (kt ++ (.punct ']', q) :: rest)) :
    ∃ r' s', rootHeader E (pk E s) r s = .ok r' s' ∧
      ExprDone E b r s ((.punct '[', p) :: (kt ++ [(.punct ']', q)])) (.table k) r' s' := by
  have hC := hG.cx
  have hty := ty_sl hC hv
  have hne := hC.ne_eof hv
  obtain ⟨g, y, h1, h2, h3, h4⟩ := hG.adv' hne
  have hy := h2.text
  rw [hty] at hy
  dsimp only at hy
  subst hy
  have w1 := hC.eat hv
  have hv1 := w1.left (r := kt ++ (.punct ']', q) :: rest) hv
  obtain ⟨key, s2, k1, k2, w2⟩ := headerKey_complete hE h4.good hk hv1 (noDot_sr _ _)
  have hv2 := w2.left hv1
  have w3 := w2.cx.eat hv2
  have hst := hI.start (by rw [hty]; simp) (by rw [h3]; simp)
  obtain ⟨z, hz, hz'⟩ := Ch.ahead hE kt ⟨h4.good.chain, h4.good.com⟩ hv1
    (key_oneLine hk (hL.mono (by rw [hv]; simp +contextual)))
  unfold rootHeader
  rw [bind_mark, bind_next]
  dsimp only
  rw [bind_ok (openArray_none hE w1.cx hk hv1), bind_ok k1]
  dsimp only
  rw [bind_ok (closeHeader_table w2.cx hv2), hr, bind_ok checkNewline_false, if_pos rfl, h2.start]
  refine header_done (la := none) hI hst (List.prefix_append _ _) hR k2
    (by simpa using w1.trans (w2.trans w3)) ⟨_, rfl⟩ ?_
  have : q = posOf (pre ++ g ++ ('[' :: z)) := by rw [hz]; simp
  rw [this]
  exact parOffset_ok (by simp [hz']) (by simp)

theorem rootHeader_array (hE : EnvEof E) (hG : Good E toks es0 pre s) {r : RootSt}
    (hI : RootInv E toks es0 pre s r) {b : Bool} (hR : RI b r.asts) (hr : r.newlineRequired = false)
    (hL : LineStr (V E s)) {p q : Pos} {kt rest : List Tok} {k : List Str} (hk : KeyToks kt k)
    (hv : V E s = (.punct '[', p) :: (.punct '[', p.plus 1) ::
      (kt ++ (.punct ']', q) :: (.punct ']', q.plus 1) :: rest)) :
    ∃ r' s', rootHeader E (pk E s) r s = .ok r' s' ∧
      ExprDone E b r s ((.punct '[', p) :: (.punct '[', p.plus 1) ::
        (kt ++ [(.punct ']', q), (.punct ']', q.plus 1)])) (.arrayTable k) r' s' := by
  have hC := hG.cx
  have hty := ty_sl hC hv
  have hne := hC.ne_eof hv
  obtain ⟨g, y, h1, h2, h3, h4⟩ := hG.adv' hne
  have hy := h2.text
  rw [hty] at hy
  dsimp only at hy
  subst hy
  have w1 := hC.eat hv
  have hp := (hC.view hv).2.1
  have hp' := hp.symm.trans h2.start
  have hv1 := w1.left (r := (.punct '[', p.plus 1) :: (kt ++ (.punct ']', q) :: (.punct ']', q.plus 1) :: rest)) hv
  obtain ⟨g', y', -, -, -, h4'⟩ := h4.good.adv' (w1.cx.ne_eof hv1)
  have w1' := w1.cx.eat hv1
  have hv1' := w1'.left (r := kt ++ (.punct ']', q) :: (.punct ']', q.plus 1) :: rest) hv1
  obtain ⟨key, s2, k1, k2, w2⟩ := headerKey_complete hE h4'.good hk hv1' (noDot_sr _ _)
  have hv2 := w2.left hv1'
  have w3 := w2.cx.eat hv2
  have hv3 := w3.left (r := (.punct ']', q.plus 1) :: rest) hv2
  have w4 := w3.cx.eat hv3
  have hst := hI.start (by rw [hty]; simp) (by rw [h3]; simp)
  have hone := key_oneLine hk (hL.mono (by rw [hv]; simp +contextual))
  obtain ⟨z, hz, hz'⟩ := Ch.ahead hE ((.punct '[', p.plus 1) :: kt) ⟨h4.good.chain, h4.good.com⟩ hv1
    (by
      intro t ht
      rcases List.mem_cons.1 ht with rfl | ht
      · exact (show (_:Char) ≠ _ by decide)
      · exact hone t ht)
  obtain ⟨z2, hz2, hz2'⟩ := Ch.ahead hE ((.punct '[', p.plus 1) :: (kt ++ [(.punct ']', q)]))
    (v := .punct ']') (p := q.plus 1) (r := rest) ⟨h4.good.chain, h4.good.com⟩ (by rw [hv1]; simp)
    (by
      intro t ht
      rcases List.mem_cons.1 ht with rfl | ht
      · exact (show (_:Char) ≠ _ by decide)
      · rcases List.mem_append.1 ht with ht | ht
        · exact hone t ht
        · rw [List.mem_singleton.1 ht]; exact (show (_:Char) ≠ _ by decide))
  unfold rootHeader
  rw [bind_mark, bind_next]
  dsimp only
  rw [hp, bind_ok (openArray_some w1.cx hv1), bind_ok k1]
  dsimp only
  rw [bind_ok (closeHeader_array w2.cx hv2), hr, bind_ok checkNewline_false, if_pos rfl]
  subst hp'
  refine header_done (la := some _) hI hst (List.prefix_append _ _) hR k2
    (by simpa using w1.trans (w1'.trans (w2.trans (w3.trans w4)))) ?_ ?_
  · have : q = posOf (pre ++ g ++ ('[' :: z)) := by rw [hz]; simp
    rw [this]
    exact parOffset_ok (by simp [hz']) (by simp)
  · have : q.plus 1 = posOf (pre ++ g ++ ('[' :: z2)) := by rw [hz2]; simp
    rw [this]
    exact parOffset_ok (by simp [hz2']) (by simp)

/-! ## Assignments -/

theorem quiet_findAssoc (cs : List Comment) (l : Nat) : Quiet (findAssociatedComments cs l) := by
  unfold findAssociatedComments; quiet

theorem rootValue_complete (hE : EnvEof E) (hC : Cx E s) {r r' : RootSt} {key : Key} {eq : Pos}
    {b : Bool} (hR : RI b r.asts) {vt rest : List Tok} {v : TVal} (hv : Val (depthLimit b) vt v)
    (hV : V E s = vt ++ rest) (hf : Follow rest) (h : rootValue E r key eq s = .ok r' s') :
    ExprDone E b r s vt (.keyVal (keyNames key) v) r' s' := by
  unfold rootValue at h
  obtain ⟨pos, s1, h1, h⟩ := bind_inv h
  have w1 := hC.ate (still_findAssoc _ _) (quiet_findAssoc _ _) h1
  obtain ⟨o, s2, h2, h⟩ := bind_inv h
  have w2 := w1.cx.ate (still_loose _ _) (quiet_loose _ _) h2
  obtain ⟨-, o1, o2, o3⟩ := looseComments_items hR h2
  clear h2
  obtain ⟨asts, level⟩ := o
  dsimp only at h o1 o2 o3
  obtain ⟨cm, s3, h3, h⟩ := bind_inv h
  have w3 := w2.cx.ate (still_storeComments _ _ _) (quiet_storeComments _ _ _) h3
  have w := w1.trans (w2.trans w3)
  obtain ⟨rv, s4, h4, h⟩ := bind_inv h
  obtain ⟨val, rfl, hval, w4⟩ := parseValue_complete hE hv (RECURSION_LIMIT + 2) level
    (by rw [o3]; cases b <;> simp [depthLimit]) _ _ _ _ w3.cx (w.left (a := []) hV) hf h4
  dsimp only at h
  rw [bind_nextId] at h
  obtain ⟨cm2, -, h⟩ := bind_lift_inv h
  obtain ⟨rfl, rfl⟩ := pure_inv h
  obtain ⟨p1, p2⟩ := pushAssignment_items o1 ⟨cm2, key, eq, val⟩
  refine ⟨by simpa using w.trans w4, rfl, ?_, by simpa [hasHeader] using p1⟩
  rw [p2, o2]
  simp [assignmentItem, hval]

theorem rootAssignment_complete (hE : EnvEof E) (hG : Good E toks es0 pre s) {r : RootSt}
    (hI : RootInv E toks es0 pre s r) {b : Bool} (hR : RI b r.asts) (hr : r.newlineRequired = false)
    {kt vt rest : List Tok} {k : List Str} {p : Pos} {v : TVal} (hk : KeyToks kt k)
    (hv : Val (depthLimit b) vt v) (hV : V E s = kt ++ (.punct '=', p) :: (vt ++ rest)) (hf : Follow rest) :
    ∃ r' s', rootAssignment E (pk E s) r s = .ok r' s' ∧
      ExprDone E b r s (kt ++ (.punct '=', p) :: vt) (.keyVal k v) r' s' := by
  have hC := hG.cx
  obtain ⟨r', s', h, -⟩ := (rootAssignment_post (P := False) hG hI (by
    rcases key_not_sl hC hk hV with ⟨id, h⟩ | ⟨id, h⟩ <;> rw [h] <;> rfl)).run
  refine ⟨r', s', h, ?_⟩
  unfold rootAssignment at h
  rw [bind_mark] at h
  obtain ⟨kr, s1, h1, h⟩ := bind_inv h
  obtain ⟨key, rfl, h2, w1⟩ := parseKey_complete hE hC hk hV (noDot_eq _ _) h1
  dsimp only at h
  have hV1 := w1.left hV
  unfold rootEq at h
  rw [bind_peek, if_pos (ty_eq w1.cx hV1), bind_next, hr, bind_ok checkNewline_false, if_pos rfl] at h
  have w2 := w1.cx.eat hV1
  have hd := rootValue_complete hE w2.cx hR hv (w2.left (r := vt ++ rest) hV1) hf h
  rw [h2] at hd
  exact ⟨by simpa using w1.trans (w2.trans hd.ate), hd.after, hd.its, hd.ri⟩

/-! ## Documents -/

/-- The tokens in front of the cursor of the loop: the rest of a line and further lines, or also an
expression in front of that. -/
def Ahead (b req : Bool) (ts : List Tok) (is : List Item) : Prop :=
  After b ts is ∨ (req = false ∧ ∃ ts1 i ts2 is', Expr b ts1 i ∧ ts = ts1 ++ ts2 ∧ is = i :: is' ∧
    After (b || hasHeader [i]) ts2 is')

theorem doc_ahead {b : Bool} {ts : List Tok} {is : List Item} (h : Doc b ts is) : Ahead b false ts is := by
  cases h with
  | last hl =>
    cases hl with
    | blank => exact .inl ⟨[], .inl rfl, .inl ⟨rfl, rfl⟩⟩
    | comment => exact .inl ⟨_, .inr ⟨_, _, rfl⟩, .inl ⟨rfl, rfl⟩⟩
    | expr hx => exact .inr ⟨rfl, _, _, [], [], hx, by simp, rfl, [], .inl rfl, .inl ⟨rfl, rfl⟩⟩
    | exprComment hx => exact .inr ⟨rfl, _, _, _, [], hx, rfl, rfl, _, .inr ⟨_, _, rfl⟩, .inl ⟨rfl, rfl⟩⟩
  | more hl hd =>
    cases hl with
    | blank => exact .inl ⟨[], .inl rfl, .inr ⟨_, _, rfl, by simpa [hasHeader] using hd⟩⟩
    | comment => exact .inl ⟨_, .inr ⟨_, _, rfl⟩, .inr ⟨_, _, rfl, by simpa [hasHeader] using hd⟩⟩
    | expr hx => exact .inr ⟨rfl, _, _, _, _, hx, rfl, rfl, [], .inl rfl, .inr ⟨_, _, rfl, hd⟩⟩
    | exprComment hx =>
      refine .inr ⟨rfl, _, _, _, _, hx, List.append_assoc _ _ _, rfl, _, .inr ⟨_, _, rfl⟩, .inr ⟨_, _, rfl, hd⟩⟩

theorem After.follow {b : Bool} {ts : List Tok} {is : List Item} (h : After b ts is) : Follow ts := by
  obtain ⟨c, hc, h⟩ := h
  intro v p r he
  rcases hc with rfl | ⟨x, q, rfl⟩
  · rcases h with ⟨rfl, -⟩ | ⟨p', ts', rfl, -⟩
    · cases he
    · cases he; exact .inl rfl
  · rcases h with ⟨rfl, -⟩ | ⟨p', ts', rfl, -⟩ <;> cases he <;> exact .inr (.inl ⟨_, rfl⟩)

theorem rootLoop_complete (hE : EnvEof E) : ∀ (n : Nat) {b : Bool} {pre : Str} {s : PS} {r : RootSt}
    {is : List Item}, Good E toks es0 pre s → RootInv E toks es0 pre s r → s.rest.length < n →
    RI b r.asts → LineStr (V E s) → Ahead b r.newlineRequired (V E s) is →
    ∃ r' s', rootLoop E n r s = .ok r' s' ∧ s'.errors = s.errors ∧ its r'.asts = its r.asts ++ is := by
  intro n
  induction n with
  | zero => intro b pre s r is _ _ hn; omega
  | succ n ih =>
    intro b pre s r is hG hI hn hR hL hA
    have hC := hG.cx
    -- one round
    have hgo : ∀ {m : M RootSt} {r1 : RootSt} {s1 : PS} {ts : List Tok} {b1 : Bool} {is0 is1 : List Item},
        m s = .ok r1 s1 → RootPost E toks es0 pre s r1 s1 → Ate E s ts s1 → RI b1 r1.asts →
        its r1.asts = its r.asts ++ is0 → is = is0 ++ is1 → Ahead b1 r1.newlineRequired (V E s1) is1 →
        ∃ r' s', (m >>= fun r => rootLoop E n r) s = .ok r' s' ∧ s'.errors = s.errors ∧
          its r'.asts = its r.asts ++ is := by
      rintro m r1 s1 ts b1 is0 is1 hm ⟨u, p1, hu, hN, hI1⟩ w hR1 hi his hA1
      have hl := hN.len
      have : 0 < u.length := List.length_pos_iff.2 hu
      obtain ⟨r', s', e1, e2, e3⟩ := ih hN.good hI1 (by omega) hR1
        (hL.mono (by rw [w.view]; simp +contextual)) hA1
      refine ⟨r', s', by rw [bind_ok hm, e1], by rw [e2, w.errs], ?_⟩
      rw [e3, hi, his, List.append_assoc]
    unfold rootLoop
    rw [bind_peek]
    rcases hA with hA | ⟨hr, ts1, i, ts2, is', hx, hV, rfl, hA⟩
    · obtain ⟨c, hc, hA⟩ := hA
      rcases hc with rfl | ⟨x, p, rfl⟩
      · rcases hA with ⟨hV, rfl⟩ | ⟨p, ts', hV, hd⟩
        · rw [pk_nil hE hV]
          exact ⟨r, s, rfl, rfl, by simp⟩
        · have hty : (pk E s).ty = .newline := (hC.view hV).1
          rw [hty]
          dsimp only
          rw [bind_next]
          have w := hC.eat hV
          obtain ⟨u, p1, h1, h2, h3⟩ := rootNewline_post hG hI hty
          have hl := h2.len
          have : 0 < u.length := List.length_pos_iff.2 h1
          obtain ⟨r', s', e1, e2, e3⟩ := ih (r := { r with newlineRequired := false }) h2.good h3 (by omega)
            hR (hL.mono (by rw [w.view]; simp +contextual)) (by rw [w.left hV]; exact doc_ahead hd)
          exact ⟨r', s', e1, by rw [e2, w.errs], e3⟩
      · have hV : ∃ rest, V E s = (.comment x, p) :: rest ∧ After b rest is := by
          rcases hA with ⟨hV, rfl⟩ | ⟨q, ts', hV, hd⟩
          · exact ⟨[], hV, [], .inl rfl, .inl ⟨rfl, rfl⟩⟩
          · exact ⟨_, hV, [], .inl rfl, .inr ⟨_, _, rfl, hd⟩⟩
        obtain ⟨rest, hV, hA⟩ := hV
        obtain ⟨id, hty, -⟩ := (hC.view hV).1
        rw [hty]
        dsimp only
        obtain ⟨r1, s1, h1, h2⟩ := (rootComment_post (P := False) hG hI hty).run
        obtain ⟨⟨x', p', w⟩, c1, c2, c3⟩ := rootComment_went hE hC hty hR h1
        have hv := w.view
        rw [hV] at hv
        simp only [List.cons_append, List.nil_append, List.cons.injEq] at hv
        refine hgo (is0 := []) h1 h2 ⟨w, (quiet_rootComment _ _ _).out _ _ _ h1⟩ c1 (by rw [c2]; simp) rfl
          (.inl ?_)
        rw [← hv.2]; exact hA
    · cases hx with
      | @keyVal kt k p vt v hk hv =>
        obtain ⟨r1, s1, h1, h2⟩ := rootAssignment_complete (rest := ts2) (v := v) (p := p) hE hG hI hR hr hk hv (by rw [hV]; simp)
          hA.follow
        have h3 := rootAssignment_post (P := False) hG hI (by
          rcases key_not_sl hC hk (by rw [hV, List.append_assoc]) with ⟨id, h⟩ | ⟨id, h⟩ <;> rw [h] <;> rfl)
        rw [h1] at h3
        have := hgo (is0 := [_]) (is1 := is') h1 h3 h2.ate h2.ri h2.its rfl (.inl (by
          rw [h2.ate.left (r := ts2) hV]; exact hA))
        rcases key_not_sl hC hk (by rw [hV, List.append_assoc]) with ⟨id, h⟩ | ⟨id, h⟩ <;> rw [h] <;> exact this
      | @table p q kt k hk =>
        obtain ⟨r1, s1, h1, h2⟩ := rootHeader_table (rest := ts2) (p := p) (q := q) hE hG hI hR hr hL hk (by rw [hV]; simp)
        have hty := ty_sl hC hV
        have h3 := rootHeader_post hG hI hty
        rw [h1] at h3
        rw [hty]
        exact hgo (is0 := [_]) (is1 := is') h1 h3 h2.ate h2.ri h2.its rfl (.inl (by
          rw [h2.ate.left (r := ts2) hV]; exact hA))
      | @arrayTable p q kt k hk =>
        obtain ⟨r1, s1, h1, h2⟩ := rootHeader_array (rest := ts2) (p := p) (q := q) hE hG hI hR hr hL hk (by rw [hV]; simp)
        have hty := ty_sl hC hV
        have h3 := rootHeader_post hG hI hty
        rw [h1] at h3
        rw [hty]
        exact hgo (is0 := [_]) (is1 := is') h1 h3 h2.ate h2.ri h2.its rfl (.inl (by
          rw [h2.ate.left (r := ts2) hV]; exact hA))

end Verif.Toml
