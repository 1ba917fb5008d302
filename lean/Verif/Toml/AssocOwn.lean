import Verif.Toml.AssocLevel

/-! # Comments: those of the entries of arrays -/

namespace Verif.Toml
open Verif Verif.Spec.Toml

variable {α β : Type} {E : Env} {s s' s1 s2 : PS}

/-- The comments of an entry: `b` is the number of stored comments. -/
structure EOwn (st : List AssocComment) (R : List Pos) (x : InlineArrayValue) : Prop where
  range : x.comments.start + x.comments.len ≤ st.length
  later : ∀ q ∈ R, Sooner x.val.start q
  comma : ∀ p, x.comma = some p → ∀ q ∈ R, Sooner p q
  own : ∀ (i : Nat) (c : AssocComment), st[i]? = some c → c.pos ≠ .above → Has x.comments i →
    Sooner x.val.start c.comment.span.start ∧ (c.pos = .contained → ∃ p, x.comma = some p ∧ Sooner c.comment.span.start p)
  all : ∀ (i : Nat) (c : AssocComment) (p : Pos), st[i]? = some c → x.comma = some p → Sooner x.val.start c.comment.span.start →
    Sooner c.comment.span.start p → ¬ Deeper [x] i → Has x.comments i

/-- What was stored since is at places that were still to come. -/
theorem Adv.fresh (h : Adv s s') {i : Nat} {c : AssocComment} (hi : s'.storage[i]? = some c) (hl : s.storage.length ≤ i) :
    c.comment.span.start ∈ rps s.rest := by
  obtain ⟨new, e1, e2⟩ := h
  have h3 : (cps s'.storage)[i]? = some c.comment.span.start := by simp [cps, hi]
  rw [e1, List.getElem?_append_right (by simp [cps]; omega)] at h3
  exact e2.subset (List.mem_append_left _ (List.mem_of_getElem? h3))

theorem Adv.back (h : Adv s s') {i : Nat} {c : AssocComment} (hi : s'.storage[i]? = some c) (hl : i < s.storage.length) :
    ∃ d, s.storage[i]? = some d ∧ d.comment.span.start = c.comment.span.start := by
  obtain ⟨c', h1, h2⟩ := h.keep (List.getElem?_eq_getElem hl)
  rw [hi] at h1
  cases h1
  exact ⟨_, List.getElem?_eq_getElem hl, h2.symm⟩

theorem EOwn.mv {x : InlineArrayValue} (h : EOwn s.storage (rps s.rest) x) (ha : Adv s s') (hk : Stay s s') : EOwn s'.storage (rps s'.rest) x := by
  refine ⟨Nat.le_trans h.range hk.len, fun q hq => h.later q (ha.rest.subset hq), fun p hp q hq => h.comma p hp q (ha.rest.subset hq),
    fun i c hc hp hh => ?_, fun i c p hc hx h1 h2 hd => ?_⟩
  · have hi : i < s.storage.length := Nat.lt_of_lt_of_le hh.2 h.range
    exact h.own i c (hk.same i c hi hc hp) hp hh
  · by_cases hi : i < s.storage.length
    · obtain ⟨d, hd1, hd2⟩ := ha.back hc hi
      rw [← hd2] at h1 h2
      exact h.all i d p hd1 hx h1 h2 hd
    · exact absurd (h.comma p hx _ (ha.fresh hc (by omega))) (fun h' => sooner_irrefl (sooner_trans h2 h'))

/-- The order of the entries. -/
def Ordered (st : List AssocComment) (x y : InlineArrayValue) : Prop :=
  Sooner x.val.start y.val.start ∧ ∀ (i : Nat) (c : AssocComment), st[i]? = some c → Has x.comments i → Sooner c.comment.span.start y.val.start

theorem Ordered.mv {x y : InlineArrayValue} (h : Ordered s.storage x y) (hx : x.comments.start + x.comments.len ≤ s.storage.length)
    (ha : Adv s s') : Ordered s'.storage x y := by
  refine ⟨h.1, fun i c hc hh => ?_⟩
  obtain ⟨d, h1, h2⟩ := ha.back hc (Nat.lt_of_lt_of_le hh.2 hx)
  rw [← h2]
  exact h.2 i d h1 hh

/-- The comments of the entries `vs` of an array whose comments are numbered from `b` on. -/
structure AOwn (b : Nat) (st : List AssocComment) (R : List Pos) (vs : List InlineArrayValue) : Prop where
  each : ∀ x ∈ vs, EOwn st R x
  order : vs.Pairwise (Ordered st)
  tail : ∀ (i : Nat) (c : AssocComment), b ≤ i → st[i]? = some c → c.pos = .lineEnd → ¬ Deeper vs i →
    (∃ x ∈ vs, Sooner x.val.start c.comment.span.start) → Entry vs i

/-- The comments of a finished array. -/
structure Owned (st : List AssocComment) (R : List Pos) (arr : InlineArray) : Prop where
  range : arr.comments.start + arr.comments.len ≤ st.length
  each : ∀ x ∈ arr.values, EOwn st R x
  order : arr.values.Pairwise (Ordered st)
  tail : ∀ (i : Nat) (c : AssocComment), Has arr.comments i → st[i]? = some c → c.pos = .lineEnd → ¬ Deeper arr.values i →
    (∃ x ∈ arr.values, Sooner x.val.start c.comment.span.start) → Entry arr.values i

theorem Owned.mv {arr : InlineArray} (h : Owned s.storage (rps s.rest) arr) (ha : Adv s s') (hk : Stay s s') : Owned s'.storage (rps s'.rest) arr := by
  refine ⟨Nat.le_trans h.range hk.len, fun x hx => (h.each x hx).mv ha hk, ?_, fun i c hh hc hp => ?_⟩
  · exact h.order.imp_of_mem fun hx _ ho => ho.mv (h.each _ hx).range ha
  · have hi : i < s.storage.length := Nat.lt_of_lt_of_le hh.2 h.range
    exact h.tail i c hh (hk.same i c hi hc (by rw [hp]; simp)) hp

/-- All arrays of a value. -/
def OwnedIn (s : PS) (v : Value) : Prop := ∀ arr, ArrayIn arr v → Owned s.storage (rps s.rest) arr

theorem OwnedIn.mv {v : Value} (h : OwnedIn s v) (ha : Adv s s') (hk : Stay s s') : OwnedIn s' v := fun arr hx => (h arr hx).mv ha hk

/-- The computation gives the comments to the right entries. -/
def OwnElem (elem : M (Except Error Value)) : Prop := ∀ s v s', Srt s → elem s = .ok (.ok v) s' → s'.errors = [] → OwnedIn s' v

/-- What holds behind a value of an array. -/
theorem afterValue_own (hE : EnvEof E) {n : Nat} {st : ArrSt} {v : Value} {r : Round ArrSt} (h0 : Srt s)
    (h : arrayAfterValue E n st v s = .ok r s') (he : s'.errors = []) :
    ∃ x st', (r = .continue st' ∨ r = .break st') ∧ st'.values = st.values ++ [x] ∧ Adv s s' ∧
      (∀ p, x.comma = some p → ∀ q ∈ rps s'.rest, Sooner p q) ∧
      ∀ (i : Nat) (c : AssocComment), s'.storage[i]? = some c → s.storage.length ≤ i → (x.comma.isSome → Has x.comments i) ∧
        (c.pos = .lineEnd → Has x.comments i) ∧
        (c.pos = .contained → Has x.comments i → ∃ p, x.comma = some p ∧ Sooner c.comment.span.start p) := by
  unfold arrayAfterValue at h
  obtain ⟨vc, s1, h1, h⟩ := bind_inv h
  obtain ⟨a1, a2, a3, a4⟩ := markAbove_level h1
  have m1 := (markAbove_mv h1).adv
  obtain ⟨vc', s2, h2, h⟩ := bind_inv h
  obtain ⟨b1, b2, b3⟩ := lineEnd_level h2
  have m2 := (lineEnd_run hE h2).1
  rw [bind_budget] at h
  obtain ⟨cm, s3, h3, h⟩ := bind_inv h
  obtain ⟨-, -, new, c3, c4⟩ := contained_level hE _ h3
  have m3 := (contained_run hE _ h3).1
  have k1 : vc'.start + vc'.len = s2.storage.length ∧ vc'.start ≤ s.storage.length ∧ s.storage.length ≤ s2.storage.length := by
    rcases b3 with ⟨e, rfl⟩ | ⟨d, e, e2⟩
    · rw [e, a1]; omega
    · refine ⟨e2, by omega, ?_⟩
      rw [e, ← a1]; simp
  have k2 : s2.storage.length ≤ s3.storage.length := by rw [c3]; simp
  have k3 : ∀ (i : Nat) (c : AssocComment), s3.storage[i]? = some c → s2.storage.length ≤ i → c.pos = .contained := by
    intro i c hc hi
    rw [c3, List.getElem?_append_right hi] at hc
    exact (c4 c (List.mem_of_getElem? hc)).2
  have k4 : ∀ (i : Nat) (c : AssocComment), s3.storage[i]? = some c → s.storage.length ≤ i → i < s2.storage.length → c.pos = .lineEnd := by
    intro i c hc hi hi2
    rw [c3, List.getElem?_append_left hi2] at hc
    rcases b3 with ⟨e, rfl⟩ | ⟨d, e, e2⟩
    · rw [e, a1] at hi2; omega
    · have hl : s2.storage.length = s1.storage.length + 1 := by rw [e]; simp
      rw [e, List.getElem?_append_right (by omega), show i - s1.storage.length = 0 by omega] at hc
      cases hc
      rfl
  rw [bind_peek] at h
  split at h
  · rename_i hcomma
    rw [bind_nextId] at h
    obtain ⟨vc3, hvc, h⟩ := bind_lift_inv h
    obtain ⟨d1, d2, d3⟩ := extend_level hvc
    obtain ⟨_, s4, h4, h⟩ := bind_inv h
    obtain ⟨r1, r2⟩ := raise_level h4
    have m4 := (markContained_mv h4).adv
    have p4 : s4.rest = s3.rest := by
      unfold markContainedComments at h4
      split at h4 <;> cases h4
      rfl
    have pk4 : Toml.pk E s4 = Toml.pk E s3 := by unfold Toml.pk; rw [p4]
    rw [bind_next] at h
    obtain ⟨vc5, s5, h5, h⟩ := bind_inv h
    obtain ⟨f1, f2, f3⟩ := lineEnd_level h5
    have m5 := (lineEnd_run hE h5).1
    rw [adv_storage] at f3
    obtain ⟨rfl, rfl⟩ := pure_inv h
    have hne : (Toml.pk E s4).ty ≠ .eof := by rw [pk4, hcomma]; simp
    have S4 : Srt s4 := h0.adv (m1.trans (m2.trans (m3.trans m4)))
    have hend : vc5.start ≤ s.storage.length ∧ vc5.start + vc5.len = s5.storage.length := by
      rcases f3 with ⟨e, rfl⟩ | ⟨cc, e, e2⟩
      · rw [e, r1]; omega
      · exact ⟨by omega, e2⟩
    have hb : ∀ q ∈ rps s4.adv.rest, Sooner (Toml.pk E s4).start q := by
      intro q hq
      unfold Srt at S4
      rw [adv_rest hE hne] at S4
      exact (List.pairwise_cons.1 (List.pairwise_append.1 S4).2.1).1 q hq
    refine ⟨_, _, .inl rfl, rfl, m1.trans (m2.trans (m3.trans (m4.trans (mv_adv.adv.trans m5)))), fun p hp q hq => ?_, fun i c hc hi => ?_⟩
    · cases hp
      exact hb q (m5.rest.subset hq)
    · dsimp only
      have hi5 : i < s5.storage.length := (List.getElem?_eq_some_iff.1 hc).1
      have hh : Has vc5 i := ⟨by omega, by omega⟩
      refine ⟨fun _ => hh, fun _ => hh, fun hp _ => ⟨_, rfl, ?_⟩⟩
      by_cases hi4 : i < s4.storage.length
      · obtain ⟨d, hd1, hd2⟩ := (mv_adv.adv.trans m5).back hc hi4
        rw [← hd2]
        exact S4.before hE hne d (List.mem_of_getElem? hd1)
      · rcases f3 with ⟨e, rfl⟩ | ⟨cc, e, e2⟩
        · rw [e] at hi5; omega
        · rw [e, List.getElem?_append_right (by omega)] at hc
          have := List.mem_of_getElem? hc
          rw [List.mem_singleton.1 this] at hp
          cases hp
  · split at h
    · obtain ⟨rfl, rfl⟩ := pure_inv h
      refine ⟨_, _, .inr rfl, rfl, m1.trans (m2.trans m3), fun p hp => (by cases hp), fun i c hc hi => ⟨fun h => (by cases h), fun hp => ?_, fun hp hh => ?_⟩⟩
      · by_cases hi2 : i < s2.storage.length
        · exact ⟨by dsimp only; omega, by dsimp only; omega⟩
        · rw [k3 i c hc (by omega)] at hp; cases hp
      · have hi2 := hh.2
        dsimp only at hi2
        rw [k4 i c hc hi (by omega)] at hp
        cases hp
    · exact absurd he (bind_error_dirty h (fun _ => by dirty))

theorem arrayRound_own (hE : EnvEof E) {n b : Nat} {elem : M (Except Error Value)} {st : ArrSt} {s0 : PS}
    {r : Round ArrSt} (hd : Dirty elem) (hk : EntElem E elem) (hl : LvElem (n + 1) elem) (ho : OwnElem elem)
    (hA : Srt s ∧ Adv s0 s ∧ ALv n b s st ∧ AOwn b s.storage (rps s.rest) st.values ∧ ∀ x ∈ st.values, OwnedIn s x.val)
    (h : arrayRound E elem n st s = .ok r s') (he : s'.errors = []) :
    ARound (fun st => Srt s' ∧ Adv s0 s' ∧ ALv n b s' st ∧ AOwn b s'.storage (rps s'.rest) st.values ∧ ∀ x ∈ st.values, OwnedIn s' x.val) r := by
  obtain ⟨hS, hM, hL, hO, hV⟩ := hA
  have hfull := arrayRound_level hE hl hL h
  have hL' : ARound (fun st => ALv n b s' st) r := by
    have := hfull.2.2
    cases r with
    | «return» => trivial
    | «continue» st' => exact this
    | «break» st' => exact this
  clear hfull
  unfold arrayRound at h
  rw [bind_budget] at h
  obtain ⟨cm, s1, h1, h⟩ := bind_inv h
  have m1 := (contained_run hE _ h1).1
  obtain ⟨c1, c2, new, c3, c4⟩ := contained_level hE _ h1
  have k1 := Stay.more c3
  have S1 := hS.adv m1
  have O1 : AOwn b s1.storage (rps s1.rest) st.values := by
    refine ⟨fun x hx => (hO.each x hx).mv m1 k1, hO.order.imp_of_mem fun hx _ ho => ho.mv (hO.each _ hx).range m1, fun i c hb hc hp => ?_⟩
    by_cases hi : i < s.storage.length
    · exact hO.tail i c hb (k1.same i c hi hc (by rw [hp]; simp)) hp
    · rw [c3, List.getElem?_append_right (by omega)] at hc
      rw [(c4 c (List.mem_of_getElem? hc)).2] at hp
      cases hp
  dsimp only at h
  rw [bind_peek] at h
  split at h
  · obtain ⟨rfl, rfl⟩ := pure_inv h
    exact ⟨S1, hM.trans m1, hL', O1, fun x hx => (hV x hx).mv m1 k1⟩
  · obtain ⟨rv, s2, h2, h, he2⟩ := bind_clean h he (by
      dirty
      all_goals first
        | exact dirty_arrayAfterValue _ _ _ | exact dirty_arrayRecover _)
    split at h
    · rename_i val
      have e2 := hk _ _ _ S1 h2 he2
      have l2 := hl _ _ _ h2
      have m2 := e2.mv.adv
      have S2 := S1.adv m2
      obtain ⟨x, st', hr, g1, g2, g3, g4⟩ := afterValue_own hE S2 h he
      obtain ⟨x', st'', hr', f1, f2, f3, f4, f5, f6, f7, f8⟩ := afterValue_level hE (n := n) (by
        show cm.level = n
        rw [c1, hL.level]) h
      obtain rfl : st'' = st' := by
        rcases hr with rfl | rfl <;> rcases hr' with hr' | hr' <;> cases hr' <;> rfl
      dsimp only at g1 f1
      obtain rfl : x' = x := by
        rw [g1] at f1
        have := List.append_cancel_left f1
        cases this
        rfl
      have m3 := m1.trans (m2.trans g2)
      have k3 := (k1.trans l2.stay).trans f7
      have hv := e2.start
      -- the tokens behind the start of the value
      have hlater : ∀ q ∈ rps s2.rest, Sooner val.start q := by
        intro q hq
        have hp := e2.past.adv.rest.subset hq
        have S1' := S1
        unfold Srt at S1'
        rw [adv_rest hE e2.ne] at S1'
        rw [hv]
        exact (List.pairwise_cons.1 (List.pairwise_append.1 S1').2.1).1 q hp
      have hbefore : ∀ c ∈ s1.storage, Sooner c.comment.span.start val.start := by
        intro c hc
        rw [hv]
        exact S1.before hE e2.ne c hc
      have X : EOwn s'.storage (rps s'.rest) x' := by
        refine ⟨f6, fun q hq => by rw [f4]; exact hlater q (g2.rest.subset hq), g3, fun i c hc hp hh => ?_, fun i c p hc hx h3 h4 hdp => ?_⟩
        · have hi : s2.storage.length ≤ i := by
            by_cases hi : i < s2.storage.length
            · exact absurd hh ((f8 i c hc hp).1 hi)
            · omega
          refine ⟨by rw [f4]; exact hlater _ (g2.fresh hc hi), fun hp => (g4 i c hc hi).2.2 hp hh⟩
        · by_cases hi : i < s2.storage.length
          · obtain ⟨d, hd1, hd2⟩ := g2.back hc hi
            by_cases hi1 : i < s1.storage.length
            · obtain ⟨d', hd1', hd2'⟩ := m2.back hd1 hi1
              have := hbefore d' (List.mem_of_getElem? hd1')
              rw [hd2', hd2] at this
              rw [f4] at h3
              exact absurd (sooner_trans this h3) sooner_irrefl
            · rcases l2.cover i (by omega) hi with ⟨q, hq⟩ | ⟨v, arr, hv, ha, hh⟩
              · cases hq
              · cases hv
                exact absurd ⟨x', by simp, arr, by rw [f4]; exact ha, hh⟩ hdp
          · exact (g4 i c hc (by omega)).1 (by rw [hx]; rfl)
      have O3 : AOwn b s'.storage (rps s'.rest) st''.values := by
        rw [f1]
        refine ⟨fun y hy => ?_, ?_, fun i c hb hc hp hdp hy => ?_⟩
        · rcases List.mem_append.1 hy with hy | hy
          · exact (hO.each y hy).mv m3 k3
          · rw [List.mem_singleton.1 hy]; exact X
        · rw [List.pairwise_append]
          refine ⟨hO.order.imp_of_mem fun hx _ ho => ho.mv (hO.each _ hx).range m3, by simp, fun y hy z hz => ?_⟩
          rw [List.mem_singleton.1 hz]
          refine ⟨?_, fun i c hc hh => ?_⟩
          · rw [f4, hv]
            refine (O1.each y hy).later _ ?_
            rw [adv_rest hE e2.ne]
            simp [rps]
          · obtain ⟨d, hd1, hd2⟩ := (m2.trans g2).back hc (Nat.lt_of_lt_of_le hh.2 (O1.each y hy).range)
            rw [← hd2, f4]
            exact hbefore d (List.mem_of_getElem? hd1)
        · obtain ⟨d1, d2⟩ := Deeper.append hdp
          by_cases hi : i < s2.storage.length
          · have hc2 := f7.same i c hi hc (by rw [hp]; simp)
            by_cases hi1 : i < s1.storage.length
            · have hc1 := l2.stay.same i c hi1 hc2 (by rw [hp]; simp)
              obtain ⟨y, hy, hs⟩ := hy
              rcases List.mem_append.1 hy with hy | hy
              · obtain ⟨z, hz, hh⟩ := O1.tail i c hb hc1 hp d1 ⟨y, hy, hs⟩
                exact ⟨z, by simp [hz], hh⟩
              · rw [List.mem_singleton.1 hy, f4] at hs
                exact absurd (sooner_trans hs (hbefore c (List.mem_of_getElem? hc1))) sooner_irrefl
            · rcases l2.cover i (by omega) hi with ⟨q, hq⟩ | ⟨v, arr, hv, ha, hh⟩
              · cases hq
              · cases hv
                exact absurd hh (d2 arr (by rw [f4]; exact ha))
          · exact ⟨x', by simp, (g4 i c hc (by omega)).2.1 hp⟩
      have V3 : ∀ y ∈ st''.values, OwnedIn s' y.val := by
        rw [f1]
        intro y hy
        rcases List.mem_append.1 hy with hy | hy
        · exact (hV y hy).mv m3 k3
        · rw [List.mem_singleton.1 hy, f4]
          exact (ho _ _ _ S1 h2 he2).mv g2 f7
      rcases hr with rfl | rfl
      · exact ⟨hS.adv m3, hM.trans m3, hL', O3, V3⟩
      · exact ⟨hS.adv m3, hM.trans m3, hL', O3, V3⟩
    · obtain ⟨rfl, -⟩ := pure_inv h
      trivial
    · exact absurd he (bind_error_dirty h (fun _ => dirty_arrayRecover _))

theorem parseArray_own (hE : EnvEof E) {n : Nat} {p : Pos} {elem : M (Except Error Value)} (hd : Dirty elem) (hk : EntElem E elem)
    (hl : LvElem (n + 1) elem) (ho : OwnElem elem) : OwnElem (parseArray E elem n p) := by
  intro s v s' h0 h he
  unfold parseArray at h
  rw [bind_next] at h
  split at h
  · obtain ⟨_, s1, -, h⟩ := bind_inv h
    obtain ⟨h, -⟩ := pure_inv h
    cases h
  · rw [bind_nextId] at h
    obtain ⟨cm, s2, h2, h⟩ := bind_inv h
    have m2 := mv_adv.adv.trans (lineEnd_run hE h2).1
    obtain ⟨a1, a2, a3⟩ := lineEnd_level h2
    rw [adv_storage] at a3
    dsimp only at a1 a2 a3
    rw [bind_budget] at h
    have new : ∃ l, s2.storage = s.storage ++ l ∧ ∀ c ∈ l, c.level = n := by
      rcases a3 with ⟨e, -⟩ | ⟨c, e, -⟩
      · exact ⟨[], by simpa using e, by simp⟩
      · exact ⟨_, e, by simp⟩
    obtain ⟨l, e1, e2⟩ := new
    have A0 : ALv n s.storage.length s ⟨⟨s.storage.length, 0, n⟩, []⟩ := by
      have hno : ∀ P, From s.storage.length P s := fun P i c hi hc _ => by
        have := (List.getElem?_eq_some_iff.1 hc).1
        omega
      exact ⟨rfl, rfl, Nat.le_refl _, hno _, by simp, hno _⟩
    have A2 : ALv n s.storage.length s2 ⟨cm, []⟩ := A0.more e1 e2 a1 (by rw [a2, adv_storage]) rfl
    obtain ⟨rl, s3, h3, h, he3⟩ := bind_clean h he (by
      dirty
      all_goals exact dirty_arrayClose _)
    split at h
    · obtain ⟨h, -⟩ := pure_inv h; cases h
    · rename_i st
      obtain ⟨hS3, m3, A3, O3, V3⟩ := loop_above (P := fun (st : ArrSt) s1 => Srt s1 ∧ Adv s s1 ∧ ALv n s.storage.length s1 st ∧
          AOwn s.storage.length s1.storage (rps s1.rest) st.values ∧ ∀ x ∈ st.values, OwnedIn s1 x.val) (dirty_arrayRound hd _)
        (fun hP hr he => arrayRound_own hE hd hk hl ho hP hr he) _
        ⟨h0.adv m2, m2, A2, ⟨by simp, by simp, fun i c _ _ _ _ ⟨x, hx, _⟩ => by cases hx⟩, by simp⟩ h3 he3
      obtain ⟨rp, s4, h4, h, he4⟩ := bind_clean h he (by dirty)
      have m4 : Adv s3 s4 := by
        unfold arrayClose at h4
        rw [bind_peek] at h4
        split at h4
        · rw [bind_next] at h4
          obtain ⟨rfl, rfl⟩ := pure_inv h4
          exact mv_adv.adv
        · obtain ⟨_, s5, -, h4⟩ := bind_inv h4
          dsimp only at h4
          rw [bind_peekPrev] at h4
          exact absurd he4 (bind_error_dirty h4 (fun _ => by dirty))
      have hs4 := (arrayClose_calm _).out _ _ _ h4
      rw [bind_nextId] at h
      obtain ⟨cm2, hcm, h⟩ := bind_lift_inv h
      obtain ⟨b1, b2, b3⟩ := extend_level hcm
      obtain ⟨_, s5, h5, h⟩ := bind_inv h
      obtain ⟨r1, r2⟩ := raise_level h5
      have m5 := m4.trans (markContained_mv h5).adv
      obtain ⟨h6, rfl⟩ := pure_inv h
      cases h6
      rw [A3.start] at b2
      rw [A3.level] at b1
      rw [hs4] at b3 r1 r2
      have same : ∀ (i : Nat) (c : AssocComment), s5.storage[i]? = some c → c.pos ≠ .above → s3.storage[i]? = some c := by
        intro i c hc hp
        obtain ⟨d, hd, e⟩ := r2 i c hc
        by_cases hh : Has cm2 i
        · rw [if_pos hh] at e
          have hp' : d.pos ≠ .above := by rw [e, raise_pos] at hp; exact hp
          have := A3.ge i d (by unfold Has at hh; omega) hd hp'
          rw [raise_ge this] at e
          rw [e]; exact hd
        · rw [if_neg hh] at e
          rw [e]; exact hd
      have k5 : Stay s3 s5 := ⟨by rw [r1]; exact Nat.le_refl _, fun i c _ hc hp => same i c hc hp⟩
      intro arr ha
      refine Owned.mv (s := s3) ?_ m5 k5
      cases ha with
      | here =>
        refine ⟨by dsimp only; omega, O3.each, O3.order, fun i c hh hc => O3.tail i c ?_ hc⟩
        have := hh.1
        dsimp only at this
        omega
      | inArray hx ha => exact V3 _ hx arr ha

theorem tableRound_own (hE : EnvEof E) {n : Nat} {elem : M (Except Error Value)} {st : TabSt}
    {r : Round TabSt} (hd : Dirty elem) (hk : EntElem E elem) (hl : LvElem n elem) (ho : OwnElem elem)
    (hA : Srt s ∧ ∀ x ∈ st.assignments, OwnedIn s x.assignment.val)
    (h : tableRound E elem st s = .ok r s') (he : s'.errors = []) :
    ARound (fun st => Srt s' ∧ ∀ x ∈ st.assignments, OwnedIn s' x.assignment.val) r := by
  obtain ⟨hS, hA⟩ := hA
  unfold tableRound at h
  rw [bind_peek] at h
  split at h
  · unfold trailingComma at h
    generalize hc : st.comma = c at h
    split at h
    · exact absurd he (bind_error_dirty h (fun _ => by dirty))
    · obtain ⟨rfl, rfl⟩ := pure_inv h
      exact ⟨hS, hA⟩
  · obtain ⟨kr, s1, h1, h, he1⟩ := bind_clean h he (by
      dirty
      all_goals first
        | exact dirty_tableAfterKey hd _ _ | exact dirty_tableRecover _)
    have m1 := moves_parseKey.out _ _ _ h1
    have k1 : Stay s s1 := .eq (calm_parseKey.out _ _ _ h1)
    split at h
    · rename_i key
      unfold tableAfterKey at h
      rw [bind_peek] at h
      split at h
      · rename_i heq
        rw [bind_next] at h
        obtain ⟨rv, s3, h3, h, he3⟩ := bind_clean h he (by
          dirty
          all_goals first
            | exact dirty_tableAfterValue _ _ | exact dirty_tableRecover _)
        split at h
        · rename_i val
          have m2 := m1.trans mv_adv.adv
          have k2 : Stay s s1.adv := k1.trans (.eq adv_storage)
          have e3 := hk _ _ _ (hS.adv m2) h3 he3
          have o3 := ho _ _ _ (hS.adv m2) h3 he3
          have m3 := m2.trans e3.mv.adv
          have k3 := k2.trans (hl _ _ _ h3).stay
          have k4 : ∀ x : InlineTableAssignment, x.assignment.val = val → ∀ y ∈ st.assignments ++ [x], OwnedIn s3 y.assignment.val := by
            rintro x rfl y hy
            rcases List.mem_append.1 hy with hy | hy
            · exact (hA y hy).mv m3 k3
            · rw [List.mem_singleton.1 hy]
              exact o3
          unfold tableAfterValue at h
          rw [bind_peek] at h
          split at h
          · rename_i hc
            rw [bind_next] at h
            obtain ⟨rfl, rfl⟩ := pure_inv h
            exact ⟨hS.adv (m3.trans mv_adv.adv), fun y hy => (k4 _ rfl y hy).mv mv_adv.adv (.eq adv_storage)⟩
          · split at h
            · obtain ⟨rfl, rfl⟩ := pure_inv h
              exact ⟨hS.adv m3, k4 _ rfl⟩
            · exact absurd he (bind_error_dirty h (fun _ => by dirty))
        · obtain ⟨rfl, -⟩ := pure_inv h
          trivial
        · exact absurd he (bind_error_dirty h (fun _ => dirty_tableRecover _))
      · obtain ⟨f, s2, -, h⟩ := bind_inv h
        exact absurd he (bind_error_dirty h (fun _ => dirty_tableRecover _))
    · obtain ⟨rfl, rfl⟩ := pure_inv h
      exact ⟨hS.adv m1, fun y hy => (hA y hy).mv m1 k1⟩
    · exact absurd he (bind_error_dirty h (fun _ => dirty_tableRecover _))

theorem parseTable_own (hE : EnvEof E) {n m : Nat} {p : Pos} {elem : M (Except Error Value)} (hd : Dirty elem) (hk : EntElem E elem)
    (hl : LvElem m elem) (ho : OwnElem elem) : OwnElem (parseTable E elem n p) := by
  intro s v s' h0 h he
  unfold parseTable at h
  rw [bind_next] at h
  split at h
  · obtain ⟨_, s1, -, h⟩ := bind_inv h
    obtain ⟨h, -⟩ := pure_inv h
    cases h
  · rw [bind_budget] at h
    obtain ⟨rl, s3, h3, h, he3⟩ := bind_clean h he (by
      dirty
      all_goals exact dirty_tableClose _)
    split at h
    · obtain ⟨h, -⟩ := pure_inv h; cases h
    · obtain ⟨hS3, k3⟩ := loop_above (P := fun (st : TabSt) s1 => Srt s1 ∧ ∀ x ∈ st.assignments, OwnedIn s1 x.assignment.val) (dirty_tableRound hd)
        (fun hP hr he => tableRound_own hE hd hk hl ho hP hr he) _ ⟨h0.adv mv_adv.adv, by simp⟩ h3 he3
      obtain ⟨rp, s4, h4, h, he4⟩ := bind_clean h he (by dirty)
      unfold tableClose at h4
      rw [bind_peek] at h4
      split at h4
      · rename_i hr
        rw [bind_next] at h4
        obtain ⟨rfl, rfl⟩ := pure_inv h4
        obtain ⟨h6, rfl⟩ := pure_inv h
        cases h6
        intro arr ha
        refine Owned.mv (s := s3) ?_ mv_adv.adv (.eq adv_storage)
        cases ha with
        | inTable hx ha => exact k3 _ hx arr ha
      · obtain ⟨_, s5, -, h4⟩ := bind_inv h4
        exact absurd he4 (bind_error_dirty h4 (fun _ => by dirty))

theorem OwnedIn.scalar {v : Value} (h : Scal v) : OwnedIn s v := by
  intro arr ha
  cases ha with
  | here => exact absurd rfl (h.2 _)
  | inArray _ _ => exact absurd rfl (h.2 _)
  | inTable _ _ => exact absurd rfl (h.1 _)

theorem parseValue_own (hE : EnvEof E) : ∀ (d n : Nat), OwnElem (parseValue E d n) := by
  intro d
  induction d with
  | zero => intro n s v s' _ h; cases h
  | succ d ih =>
    intro n s v s' h0 h he
    unfold parseValue at h
    rw [bind_peek] at h
    generalize hty : (pk E s).ty = ty at h
    split at h
    · obtain ⟨w, s1, h1, h⟩ := bind_inv h
      obtain ⟨h2, rfl⟩ := pure_inv h
      cases h2
      unfold parseStringValue at h1
      rw [bind_next] at h1
      obtain ⟨str, s2, -, h1⟩ := bind_inv h1
      obtain ⟨rfl, -⟩ := pure_inv h1
      exact .scalar (by simp [Scal])
    · obtain ⟨w, s1, h1, h⟩ := bind_inv h
      obtain ⟨h2, rfl⟩ := pure_inv h
      cases h2
      unfold parseLiteralValue at h1
      rw [bind_next] at h1
      obtain ⟨l1, s2, -, h1⟩ := bind_inv h1
      obtain ⟨⟨l2, sp2⟩, s3, h3, h1⟩ := bind_inv h1
      exact .scalar (literalValue_start h1 he).2
    · exact .scalar (parseDot_scal _ _ _ h v rfl)
    · exact parseArray_own hE (dirty_parseValue _ _) (parseValue_ent hE _ _) (parseValue_level hE _ _) (ih _) _ _ _ h0 h he
    · exact parseTable_own hE (dirty_parseValue _ _) (parseValue_ent hE _ _) (parseValue_level hE _ _) (ih _) _ _ _ h0 h he
    · obtain ⟨f, s1, -, h⟩ := bind_inv h
      obtain ⟨h, -⟩ := pure_inv h
      cases h

end Verif.Toml
