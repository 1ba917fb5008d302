import Verif.Toml.AssocEnt

/-! # Comments: those directly above the entry of an array are marked; documents -/

namespace Verif.Toml
open Verif Verif.Spec.Toml

variable {E : Env} {s s' s1 s2 : PS}

theorem EntOk.app {st : List AssocComment} {R R' : List Pos} {l : Nat} {b e : Pos} (h : EntOk st R l b e) {new : List AssocComment}
    (hn : ∀ p ∈ cps new ++ R', p ∈ R) : EntOk (st ++ new) R' l b e := by
  refine ⟨fun p hp => h.1 p (hn p (List.mem_append_right _ hp)), fun i c hi hl hj => ?_⟩
  by_cases hlen : i < st.length
  · rw [List.getElem?_append_left hlen] at hi
    refine h.2 i c hi hl fun j d hij hd => hj j d hij ?_
    rw [List.getElem?_append_left (List.getElem?_eq_some_iff.1 hd).1]
    exact hd
  · rw [List.getElem?_append_right (by omega)] at hi
    have := h.1 _ (hn _ (List.mem_append_left _ (List.mem_map_of_mem (List.mem_of_getElem? hi))))
    omega

/-- The comments above entries are marked, between the items of a document. -/
def RootEnt (st : List AssocComment) (R : List Pos) (asts : List Ast) : Prop :=
  ∀ v ∈ vals asts, ∀ l b e, Ents v l b e → EntOk st R l b e

theorem RootEnt.app {st : List AssocComment} {R R' : List Pos} {as as' : List Ast} (h : RootEnt st R as) {new : List AssocComment}
    (hn : ∀ p ∈ cps new ++ R', p ∈ R) (hv : ∀ v ∈ vals as', v ∈ vals as) : RootEnt (st ++ new) R' as' :=
  fun v h1 l b e h2 => (h v (hv v h1) l b e h2).app hn

theorem RootEnt.calm {R : List Comment} {as : List Ast} (h : RootEnt s.storage (cp R ++ rps s.rest) as) (hs : s'.storage = s.storage) (ha : Adv s s') :
    RootEnt s'.storage (cp R ++ rps s'.rest) as := by
  rw [hs]
  have := h.app (new := []) (R' := cp R ++ rps s'.rest) (fun p hp => ?_) (fun _ h => h)
  · simpa using this
  · simp only [cps, List.map_nil, List.nil_append, List.mem_append] at hp ⊢
    rcases hp with hp | hp
    · exact .inl hp
    · exact .inr (ha.rest.subset hp)

/-- What holds between the items of a document. -/
structure ER (s : PS) (r : RootSt) : Prop where
  jr : JR s r
  ent : RootEnt s.storage (cp r.prevComments ++ rps s.rest) r.asts

theorem ER.calm {r : RootSt} (h : ER s r) (hs : s'.storage = s.storage) (ha : Adv s s') : ER s' r :=
  ⟨h.jr.calm hs ha, h.ent.calm hs ha⟩

theorem cps_new {cs : List Comment} {p : AssocPos} {level : Nat} : cps (cs.map (fun c => ⟨p, level, c⟩)) = cp cs := by
  simp [cps, cp]

theorem finishHeader_ent {ovf : Bool} {r r' : RootSt} {l : Pos} {la : Option Pos} {k : Option Key} {q : Option Pos × Option Pos}
    (hA : ER s r) (h : finishHeader ovf r l la k q s = .ok r' s') : ER s' r' := by
  refine ⟨finishHeader_arr hA.jr h, ?_⟩
  unfold finishHeader at h
  obtain ⟨pos, s1, h1, h'⟩ := bind_inv h
  clear h
  obtain ⟨-, rfl⟩ := lift_inv h1
  dsimp only at h'
  have h := h'
  obtain ⟨cm, s2, h2, h⟩ := bind_inv h
  obtain ⟨-, e2⟩ := storeComments_storage h2
  unfold storeComments at h2
  rw [bind_nextId] at h2
  have e1 := addComments_more _ h2
  have fin : ∀ x : Ast, astValues x = [] →
      RootEnt s2.storage (cp [] ++ rps s2.rest) (r.asts ++ (r.prevComments.take pos).map Ast.comment ++ [x]) := by
    intro x hx
    rw [e1]
    refine hA.ent.app ?_ ?_
    · rw [cps_new, e2]
      exact fun p hp => (drop_sub (r := r) (pos := pos)).subset (by simpa [cp] using hp)
    · intro v hv
      have : vals [x] = [] := by simp [vals, hx]
      simpa only [vals_append, vals_comments, this, List.append_nil] using hv
  split at h
  · obtain ⟨hd, -, h⟩ := bind_lift_inv h
    obtain ⟨rfl, rfl⟩ := pure_inv h
    exact fin _ rfl
  · obtain ⟨hd, -, h⟩ := bind_lift_inv h
    obtain ⟨rfl, rfl⟩ := pure_inv h
    exact fin _ rfl

theorem rootHeader_ent {r r' : RootSt} (hJ : ER s r) (h : rootHeader E (pk E s) r s = .ok r' s') : ER s' r' := by
  unfold rootHeader at h
  rw [bind_mark] at h
  obtain ⟨t, s1, h1, h⟩ := bind_inv h
  have j1 := hJ.calm (calm_next.out _ _ _ h1) (moves_next.out _ _ _ h1)
  dsimp only at h
  obtain ⟨la, s2, h2, h⟩ := bind_inv h
  have j2 := j1.calm ((calm_openArray _).out _ _ _ h2) ((show Moves (openArray E t.start) by unfold openArray; moves).out _ _ _ h2)
  obtain ⟨⟨key, skip⟩, s3, h3, h⟩ := bind_inv h
  have j3 := j2.calm (calm_headerKey.out _ _ _ h3) ((show Moves (headerKey E) by
    unfold headerKey; refine moves_parseKey.bind fun k => ?_; moves).out _ _ _ h3)
  dsimp only at h
  obtain ⟨q, s4, h4, h⟩ := bind_inv h
  have j4 := j3.calm ((calm_closeHeader _ _ _).out _ _ _ h4) ((show Moves (closeHeader E t.start la skip) by
    unfold closeHeader closeArray closeTable checkSpace tokenFmtStrAndSpan tokenFmtStr tokenSpan; moves).out _ _ _ h4)
  obtain ⟨b, s5, h5, h⟩ := bind_inv h
  have j5 := j4.calm ((checkNewline_arr _ _ _).1.out _ _ _ h5) ((checkNewline_arr _ _ _).2.out _ _ _ h5)
  split at h
  · exact finishHeader_ent j5 h
  · obtain ⟨rfl, rfl⟩ := pure_inv h
    exact j5

theorem rootComment_ent (hE : EnvEof E) {r r' : RootSt} {id : Nat} (hty : (pk E s).ty = .comment id) (hJ : ER s r)
    (h : rootComment E (pk E s) id r s = .ok r' s') : ER s' r' := by
  refine ⟨rootComment_arr hE hty hJ.jr h, ?_⟩
  have hr := adv_rest hE (s := s) (by rw [hty]; simp)
  have hr' : rps s.rest = (pk E s).start :: rps s.adv.rest := by
    conv => lhs; rw [hr]
    rfl
  unfold rootComment at h
  rw [bind_next] at h
  unfold getComment at h
  obtain ⟨d, hd, h⟩ := bind_lift_inv h
  have hds : d.span.start = (pk E s).start := by
    obtain ⟨l, -, rfl⟩ := Option.map_eq_some_iff.1 hd
    rfl
  split at h
  · rename_i hreq
    obtain ⟨cid, s2, h5, h⟩ := bind_inv h
    cases h5
    generalize hla : r.asts.getLast? = la at h
    cases la with
    | none => cases h
    | some a =>
      dsimp only at h
      obtain ⟨a', ha, h⟩ := bind_lift_inv h
      obtain ⟨rfl, rfl⟩ := pure_inv h
      have hs := last_split hla
      dsimp only
      rw [adv_storage]
      refine hJ.ent.app ?_ ?_
      · rw [hr']
        intro p hp
        simp only [cps, List.map_cons, List.map_nil, List.cons_append, List.nil_append, List.mem_cons, List.mem_append, hds] at hp ⊢
        grind
      · intro v hv
        rw [hs]
        simpa [vals_append, vals, appendComment_vals ha] using hv
  · rename_i hreq
    obtain ⟨rfl, rfl⟩ := pure_inv h
    rw [adv_storage]
    have := hJ.ent.app (new := []) (R' := cp (r.prevComments ++ [d]) ++ rps s.adv.rest) (as' := r.asts) ?_ (fun _ h => h)
    · simpa using this
    · rw [hr']
      intro p hp
      simp only [cp, cps, List.map_append, List.map_cons, List.map_nil, List.nil_append, List.mem_append, List.mem_cons, hds,
        List.not_mem_nil, or_false] at hp ⊢
      grind

theorem looseComments_ent {r : RootSt} {cs : List Comment} {o : List Ast × Nat} (h : looseComments r cs s = .ok o s') :
    ∃ new, s'.storage = s.storage ++ new ∧ ∀ p ∈ cps new, p ∈ cp cs := by
  unfold looseComments at h
  generalize hl : r.asts.getLast? = la at h
  split at h
  · obtain ⟨c, s1, h1, h⟩ := bind_inv h
    have g1 := addComments_more _ h1
    obtain ⟨rfl, rfl⟩ := pure_inv h
    exact ⟨_, g1, by rw [cps_new]; exact fun _ h => h⟩
  · obtain ⟨c, s1, h1, h⟩ := bind_inv h
    have g1 := addComments_more _ h1
    obtain ⟨rfl, rfl⟩ := pure_inv h
    exact ⟨_, g1, by rw [cps_new]; exact fun _ h => h⟩
  · obtain ⟨rfl, rfl⟩ := pure_inv h
    exact ⟨[], by simp, by simp [cps]⟩

/-- Values and comments in front of the value of an assignment. -/
theorem srt_front {r : RootSt} {pos : Nat} {o : List Ast × Nat} {level : Nat} {cm : CommentRange} (hJ : ER s r)
    (h2 : looseComments r (r.prevComments.take pos) s = .ok o s1)
    (h3 : storeComments (r.prevComments.drop pos) .above level s1 = .ok cm s2) : Srt s2 ∧ RootEnt s2.storage (rps s2.rest) o.1 := by
  obtain ⟨e1, e2, e3⟩ := looseComments_arr h2
  obtain ⟨e4, e5⟩ := storeComments_storage h3
  have hrest : s2.rest = s.rest := by rw [e5, e1]
  have hsplit : cp r.prevComments = cp (r.prevComments.take pos) ++ cp (r.prevComments.drop pos) := by
    unfold cp; rw [← List.map_append, List.take_append_drop]
  constructor
  · unfold Srt
    rw [e4, hrest]
    rcases e3 with ⟨e3, -⟩ | ⟨e3, -⟩
    · rw [e3, List.append_assoc, List.append_assoc]
      have := hJ.jr.srt
      rw [hsplit, List.append_assoc] at this
      exact this
    · rw [e3, List.append_assoc]
      exact hJ.jr.srt.sublist (List.Sublist.append_left drop_sub _)
  · obtain ⟨new, g1, g2⟩ := looseComments_ent h2
    unfold storeComments at h3
    rw [bind_nextId] at h3
    have g3 := addComments_more _ h3
    rw [g3, g1, List.append_assoc]
    refine hJ.ent.app (fun p hp => ?_) e2
    rw [hsplit]
    have hn : cps (new ++ (r.prevComments.drop pos).map fun c => (⟨.above, level, c⟩ : AssocComment)) = cps new ++ cp (r.prevComments.drop pos) := by
      rw [← cps_new (p := .above) (level := level)]
      simp [cps]
    rw [hn, hrest] at hp
    simp only [List.mem_append] at hp ⊢
    rcases hp with (hp | hp) | hp
    · exact .inl (.inl (g2 p hp))
    · exact .inl (.inr hp)
    · exact .inr hp

theorem rootValue_ent (hE : EnvEof E) {r r' : RootSt} {k : Key} {eq : Pos} (hJ : ER s r)
    (h : rootValue E r k eq s = .ok r' s') (he : s'.errors = []) : ER s' r' := by
  refine ⟨rootValue_arr hE hJ.jr h, ?_⟩
  unfold rootValue at h
  obtain ⟨pos, s1, h1, h'⟩ := bind_inv h
  clear h
  obtain ⟨-, rfl⟩ := lift_inv h1
  have h := h'
  obtain ⟨⟨asts, level⟩, s2, h2, h⟩ := bind_inv h
  dsimp only at h
  obtain ⟨cm, s3, h3, h⟩ := bind_inv h
  obtain ⟨hs, hr⟩ := srt_front hJ h2 h3
  obtain ⟨rv, s4, h4, h, he4⟩ := bind_clean h he (by dirty)
  split at h
  · rename_i v
    have hv := parseValue_ent hE _ _ _ _ _ hs h4 he4
    rw [bind_nextId] at h
    obtain ⟨cm2, -, h⟩ := bind_lift_inv h
    obtain ⟨rfl, rfl⟩ := pure_inv h
    intro w hw l b e hl
    obtain ⟨p1, -⟩ := push_arr (asts := asts) (a := ⟨cm2, k, eq, v⟩)
    simp only [cp, List.map_nil, List.nil_append]
    rcases p1 w hw with hw | rfl
    · exact (hr w hw l b e hl).mv hv.mv
    · exact hv.ents l b e hl
  · exact absurd he (bind_error_dirty h (fun _ => by dirty))

theorem rootAssignment_ent (hE : EnvOk E) {r r' : RootSt} {t : Token} (hC : Cx E s) (hA : ER s r)
    (h : rootAssignment E t r s = .ok r' s') (he : s'.errors = []) : ER s' r' := by
  unfold rootAssignment at h
  rw [bind_mark] at h
  obtain ⟨kr, s1, h1, h, he1⟩ := bind_clean h he (by
    dirty
    all_goals first
      | exact dirty_rootEq _ _ _ _ | exact dirty_expectedNewline _ _)
  have hk := parseKey_sound hE hC h1 he1
  have j1 := hA.calm (calm_parseKey.out _ _ _ h1) (moves_parseKey.out _ _ _ h1)
  clear h1
  split at h
  · rename_i key
    unfold rootEq at h
    rw [bind_peek] at h
    split at h
    · rename_i heq
      obtain ⟨e, s2, h2, h⟩ := bind_inv h
      have j2 := j1.calm (calm_next.out _ _ _ h2) (moves_next.out _ _ _ h2)
      obtain ⟨go, s3, h3, h', he3⟩ := bind_clean h he (by
        dirty
        all_goals exact dirty_rootValue _ _ _)
      clear h
      obtain ⟨-, rfl, rfl⟩ := checkNewline_sound h3 he3
      rw [if_pos rfl] at h'
      exact rootValue_ent hE.1 j2 h' he
    · obtain ⟨_, s2, -, h⟩ := bind_inv h
      split at h
      · obtain ⟨_, s3, h3, h⟩ := bind_inv h
        obtain ⟨-, rfl⟩ := pure_inv h
        exact absurd he (expectedNewline_clean h3)
      · obtain ⟨f, s3, -, h⟩ := bind_inv h
        exact absurd he (bind_error_dirty h (fun _ => by dirty))
  · exact hk.elim
  · obtain ⟨_, s2, -, h⟩ := bind_inv h
    split at h
    · obtain ⟨_, s3, h3, h⟩ := bind_inv h
      obtain ⟨-, rfl⟩ := pure_inv h
      exact absurd he (expectedNewline_clean h3)
    · exact absurd he (bind_error_dirty h (fun _ => by dirty))

theorem rootLoop_ent {vs : List Tok} (hn : (vs.map (·.2)).Nodup) (hE : EnvOk E) : ∀ (n : Nat) {s : PS} {r r' : RootSt}, KR E vs s r →
    ER s r → rootLoop E n r s = .ok r' s' → s'.errors = [] → ER s' r' := by
  intro n
  induction n with
  | zero => intro s r r' _ _ h; cases h
  | succ n ih =>
    intro s r r' hK hA h he
    unfold rootLoop at h
    rw [bind_peek] at h
    generalize hty : (pk E s).ty = ty at h
    split at h
    · obtain ⟨r1, s1, h1, h, he1⟩ := bind_clean h he (fun _ => dirty_rootLoop _ _)
      exact ih (rootHeader_kind hE hty hK h1 he1) (rootHeader_ent hA h1) h he
    · obtain ⟨r1, s1, h1, h⟩ := bind_inv h
      exact ih (rootComment_kind hE.1 hty hK h1) (rootComment_ent hE.1 hty hA h1) h he
    · have hk := hK
      rw [bind_next] at h
      obtain ⟨e1, e2⟩ := hK.ko.nl_next hn hE.1 hty
      have j1 := hA.calm (s' := s.adv) adv_storage mv_adv.adv
      exact ih (r := { r with newlineRequired := false }) ⟨e1, hK.prev, hK.free, by simp, fun _ => e2, hK.ri⟩
        ⟨⟨j1.jr.srt, j1.jr.arr, j1.jr.free, by simp⟩, j1.ent⟩ h he
    · obtain ⟨rfl, rfl⟩ := pure_inv h
      exact hA
    · rename_i n1 n2 n3 n4
      obtain ⟨r1, s1, h1, h, he1⟩ := bind_clean h he (fun _ => dirty_rootLoop _ _)
      exact ih (rootAssignment_kind hn hE (by rw [hty]; exact n4) hK h1 he1) (rootAssignment_ent hE hK.ko.cx hA h1 he1) h he

end Verif.Toml
