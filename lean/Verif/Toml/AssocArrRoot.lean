import Verif.Toml.AssocArr

/-! # Comments: the comments of the arrays of a document -/

namespace Verif.Toml
open Verif Verif.Spec.Toml

variable {α β : Type} {E : Env} {s s' s1 : PS}

/-- The places of comments. -/
def cp (cs : List Comment) : List Pos := cs.map (·.span.start)

/-- The values of a tree. -/
def vals (as : List Ast) : List Value := as.flatMap astValues

/-- The place is not between the brackets of an array of the value. -/
def Outside (p : Pos) (v : Value) : Prop :=
  ∀ arr q, ArrayIn arr v → arr.stop = .par q → ¬ (Sooner arr.lPar p ∧ Sooner p q)

/-- What holds between the items of a document. -/
structure JR (s : PS) (r : RootSt) : Prop where
  srt : (cps s.storage ++ (cp r.prevComments ++ rps s.rest)).Pairwise Sooner
  arr : ∀ v ∈ vals r.asts, ArrGood (cps s.storage) (cp r.prevComments ++ rps s.rest) v
  free : ∀ c ∈ astComments r.asts, (∀ p ∈ cp r.prevComments ++ rps s.rest, Sooner c.span.start p) ∧
    ∀ v ∈ vals r.asts, Outside c.span.start v
  req : r.newlineRequired = true → r.prevComments = []

/-- Some of the comments in front become free, others are stored, and tokens are consumed. -/
theorem JR.step {r r' : RootSt} (h : JR s r) {new : List Pos} (h1 : cps s'.storage = cps s.storage ++ new)
    (h2 : (new ++ (cp r'.prevComments ++ rps s'.rest)).Sublist (cp r.prevComments ++ rps s.rest))
    (h3 : ∀ v ∈ vals r'.asts, v ∈ vals r.asts)
    (h4 : ∀ c ∈ astComments r'.asts, c ∈ astComments r.asts ∨
      (c ∈ r.prevComments ∧ ∀ p ∈ cp r'.prevComments ++ rps s'.rest, Sooner c.span.start p))
    (h5 : r'.newlineRequired = true → r'.prevComments = []) : JR s' r' := by
  have hsub : ∀ p ∈ cp r'.prevComments ++ rps s'.rest, p ∈ cp r.prevComments ++ rps s.rest :=
    fun p hp => h2.subset (List.mem_append.2 (.inr hp))
  refine ⟨?_, ?_, ?_, h5⟩
  · rw [h1, List.append_assoc]
    exact h.srt.sublist (List.Sublist.append_left h2 _)
  · intro v hv
    rw [h1]
    exact (h.arr v (h3 v hv)).mono h2
  · intro c hc
    rcases h4 c hc with hc | ⟨hc, hc'⟩
    · obtain ⟨g1, g2⟩ := h.free c hc
      exact ⟨fun p hp => g1 p (hsub p hp), fun v hv => g2 v (h3 v hv)⟩
    · refine ⟨hc', fun v hv arr q ha hq hb => ?_⟩
      have := (h.arr v (h3 v hv) arr q ha hq).2 c.span.start (List.mem_append.2 (.inl (List.mem_map_of_mem hc)))
      exact sooner_irrefl (sooner_trans hb.2 this)

theorem JR.calm {r : RootSt} (h : JR s r) (hs : s'.storage = s.storage) (ha : Adv s s') : JR s' r :=
  h.step (new := []) (by rw [hs]; simp) (List.Sublist.append_left ha.rest _) (fun _ h => h) (fun c hc => .inl hc) h.req

theorem addComments_storage {p : AssocPos} : ∀ (cs : List Comment) {s s' : PS} {r a : CommentRange},
    addComments r p cs s = .ok a s' → cps s'.storage = cps s.storage ++ cp cs ∧ s'.rest = s.rest := by
  intro cs
  induction cs with
  | nil =>
    intro s s' r a h
    obtain ⟨rfl, rfl⟩ := pure_inv h
    exact ⟨by simp [cp], rfl⟩
  | cons c cs ih =>
    intro s s' r a h
    unfold addComments at h
    obtain ⟨r1, s1, h1, h2⟩ := bind_inv h
    obtain ⟨rfl, -⟩ := addComment_storage h1
    obtain ⟨g1, g2⟩ := ih h2
    exact ⟨by rw [g1]; simp [cps, cp, PS.stored], g2⟩

theorem storeComments_storage {cs : List Comment} {p : AssocPos} {level : Nat} {a : CommentRange}
    (h : storeComments cs p level s = .ok a s') : cps s'.storage = cps s.storage ++ cp cs ∧ s'.rest = s.rest := by
  unfold storeComments at h
  rw [bind_nextId] at h
  exact addComments_storage cs h

/-! ## Trees -/

theorem vals_append (a b : List Ast) : vals (a ++ b) = vals a ++ vals b := List.flatMap_append
theorem vals_comments (cs : List Comment) : vals (cs.map .comment) = [] := by
  induction cs with
  | nil => rfl
  | cons c cs ih => simpa [vals, astValues] using ih
theorem astComments_append' (a b : List Ast) : astComments (a ++ b) = astComments a ++ astComments b := List.filterMap_append
theorem last_split {as : List Ast} {a : Ast} (h : as.getLast? = some a) : as = as.dropLast ++ [a] := by
  rcases List.eq_nil_or_concat as with rfl | ⟨xs, x, rfl⟩
  · cases h
  · simp at h
    subst h
    simp

theorem looseComments_arr {r : RootSt} {cs : List Comment} {o : List Ast × Nat} (h : looseComments r cs s = .ok o s') :
    s'.rest = s.rest ∧ (∀ v ∈ vals o.1, v ∈ vals r.asts) ∧
    ((cps s'.storage = cps s.storage ++ cp cs ∧ astComments o.1 = astComments r.asts) ∨
      (s'.storage = s.storage ∧ astComments o.1 = astComments r.asts ++ cs)) := by
  unfold looseComments at h
  generalize hl : r.asts.getLast? = la at h
  split at h
  · obtain ⟨c, s1, h1, h⟩ := bind_inv h
    obtain ⟨g1, g2⟩ := addComments_storage _ h1
    obtain ⟨rfl, rfl⟩ := pure_inv h
    have hs := last_split hl
    refine ⟨g2, ?_, .inl ⟨g1, ?_⟩⟩
    · intro v hv
      rw [hs]
      simpa [vals_append, vals, astValues] using hv
    · conv => rhs; rw [hs]
      simp [astComments_append', astComments]
  · obtain ⟨c, s1, h1, h⟩ := bind_inv h
    obtain ⟨g1, g2⟩ := addComments_storage _ h1
    obtain ⟨rfl, rfl⟩ := pure_inv h
    have hs := last_split hl
    refine ⟨g2, ?_, .inl ⟨g1, ?_⟩⟩
    · intro v hv
      rw [hs]
      simpa [vals_append, vals, astValues] using hv
    · conv => rhs; rw [hs]
      simp [astComments_append', astComments]
  · obtain ⟨rfl, rfl⟩ := pure_inv h
    refine ⟨rfl, ?_, .inr ⟨rfl, ?_⟩⟩
    · intro v hv
      simpa [vals_append, vals_comments] using hv
    · simp [astComments_append', astComments_map]

theorem push_arr {asts : List Ast} {a : ToplevelAssignment} :
    (∀ v ∈ vals (pushAssignment asts a), v ∈ vals asts ∨ v = a.assignment.val) ∧
    astComments (pushAssignment asts a) = astComments asts := by
  unfold pushAssignment
  generalize hl : asts.getLast? = la
  split
  · have hs := last_split hl
    refine ⟨?_, by conv => rhs; rw [hs]
                   simp [astComments_append', astComments]⟩
    intro v hv
    rw [hs]
    simp only [vals, List.flatMap_append, List.flatMap_cons, List.flatMap_nil, List.append_nil, astValues, List.map_append,
      List.mem_append, List.map_cons, List.map_nil, List.mem_singleton] at hv ⊢
    grind
  · have hs := last_split hl
    refine ⟨?_, by conv => rhs; rw [hs]
                   simp [astComments_append', astComments]⟩
    intro v hv
    rw [hs]
    simp only [vals, List.flatMap_append, List.flatMap_cons, List.flatMap_nil, List.append_nil, astValues, List.map_append,
      List.mem_append, List.map_cons, List.map_nil, List.mem_singleton] at hv ⊢
    grind
  · refine ⟨?_, by simp [astComments_append', astComments]⟩
    intro v hv
    simp only [vals_append, List.mem_append] at hv
    rcases hv with hv | hv
    · exact .inl hv
    · right; simpa [vals, astValues] using hv

theorem appendComment_free {a b : Ast} {id : Nat} (h : a.appendComment id = some b) : astComments [b] = astComments [a] := by
  cases a with
  | comment => cases h
  | assignment =>
    simp only [Ast.appendComment, Option.map_eq_some_iff] at h
    obtain ⟨c, -, rfl⟩ := h; rfl
  | table =>
    simp only [Ast.appendComment, Option.map_eq_some_iff] at h
    obtain ⟨c, -, rfl⟩ := h; rfl
  | array =>
    simp only [Ast.appendComment, Option.map_eq_some_iff] at h
    obtain ⟨c, -, rfl⟩ := h; rfl

/-! ## The items -/

theorem sooner_prev {r : RootSt} (h : JR s r) {pos : Nat} {c : Comment} (hc : c ∈ r.prevComments.take pos) :
    c ∈ r.prevComments ∧ ∀ p ∈ cp (r.prevComments.drop pos) ++ rps s.rest, Sooner c.span.start p := by
  refine ⟨List.mem_of_mem_take hc, fun p hp => ?_⟩
  have h1 := (List.pairwise_append.1 h.srt).2.1
  have h2 : cp r.prevComments = cp (r.prevComments.take pos) ++ cp (r.prevComments.drop pos) := by
    unfold cp; rw [← List.map_append, List.take_append_drop]
  rw [h2, List.append_assoc] at h1
  exact (List.pairwise_append.1 h1).2.2 _ (List.mem_map_of_mem hc) p hp

theorem drop_sub {r : RootSt} {pos : Nat} {R : List Pos} :
    (cp (r.prevComments.drop pos) ++ R).Sublist (cp r.prevComments ++ R) :=
  List.Sublist.append_right ((List.drop_sublist _ _).map _) _

theorem finishHeader_arr {ovf : Bool} {r r' : RootSt} {l : Pos} {la : Option Pos} {k : Option Key} {q : Option Pos × Option Pos}
    (hJ : JR s r) (h : finishHeader ovf r l la k q s = .ok r' s') : JR s' r' := by
  unfold finishHeader at h
  obtain ⟨pos, s1, h1, h'⟩ := bind_inv h
  clear h
  obtain ⟨-, rfl⟩ := lift_inv h1
  dsimp only at h'
  have h := h'
  obtain ⟨cm, s2, h2, h⟩ := bind_inv h
  obtain ⟨e1, e2⟩ := storeComments_storage h2
  have fin : ∀ x : Ast, astValues x = [] → (∀ c, x ≠ .comment c) →
      JR s2 ⟨r.asts ++ (r.prevComments.take pos).map Ast.comment ++ [x], [], true⟩ := by
    intro x hx hc
    refine hJ.step e1 ?_ ?_ ?_ (fun _ => rfl)
    · rw [e2]
      exact drop_sub
    · intro v hv
      have : vals [x] = [] := by simp [vals, hx]
      simpa only [vals_append, vals_comments, this, List.append_nil] using hv
    · intro c hm
      have : astComments [x] = [] := by
        cases x with
        | comment c => exact absurd rfl (hc c)
        | _ => rfl
      simp only [astComments_append', this, List.append_nil, astComments_map, List.mem_append] at hm
      rcases hm with hm | hm
      · exact .inl hm
      · obtain ⟨g1, g2⟩ := sooner_prev hJ hm
        refine .inr ⟨g1, fun p hp => g2 p ?_⟩
        rw [e2] at hp
        have hp : p ∈ rps s1.rest := by simpa [cp] using hp
        simp [hp]
  split at h
  · obtain ⟨hd, -, h⟩ := bind_lift_inv h
    obtain ⟨rfl, rfl⟩ := pure_inv h
    exact fin _ rfl (by simp)
  · obtain ⟨hd, -, h⟩ := bind_lift_inv h
    obtain ⟨rfl, rfl⟩ := pure_inv h
    exact fin _ rfl (by simp)

theorem calm_reset (m : Nat) : Calm (reset m) := ⟨fun s b s' h => by cases h; rfl⟩

theorem expectedNewline_arr (m : Nat) (t : Token) : Calm (expectedNewline E m t) ∧ Moves (expectedNewline E m t) := by
  constructor
  · unfold expectedNewline tokenFmtStr
    refine (calm_reset _).bind fun _ => ?_
    calm
  · unfold expectedNewline tokenFmtStr; moves

theorem checkNewline_arr (b : Bool) (m : Nat) (t : Token) : Calm (checkNewline E b m t) ∧ Moves (checkNewline E b m t) := by
  have h1 := (expectedNewline_arr (E := E) m t).1
  have h2 := (expectedNewline_arr (E := E) m t).2
  constructor
  · unfold checkNewline; calm
  · unfold checkNewline; moves

theorem rootHeader_arr {r r' : RootSt} (hJ : JR s r) (h : rootHeader E (pk E s) r s = .ok r' s') : JR s' r' := by
  unfold rootHeader at h
  rw [bind_mark] at h
  obtain ⟨t, s1, h1, h⟩ := bind_inv h
  have j1 := hJ.calm (calm_next.out _ _ _ h1) (moves_next.out _ _ _ h1)
  dsimp only at h
  obtain ⟨la, s2, h2, h⟩ := bind_inv h
  have j2 := j1.calm ((calm_openArray _).out _ _ _ h2) ((show Moves (openArray E t.start) by unfold openArray; moves).out _ _ _ h2)
  obtain ⟨⟨key, skip⟩, s3, h3, h⟩ := bind_inv h
  have j3 := j2.calm (calm_headerKey.out _ _ _ h3) ((show Moves (headerKey E) by
    unfold headerKey; refine moves_parseKey.bind fun k => ?_; moves).out _ _ _ h3)
  dsimp only at h
  obtain ⟨q, s4, h4, h⟩ := bind_inv h
  have j4 := j3.calm ((calm_closeHeader _ _ _).out _ _ _ h4) ((show Moves (closeHeader E t.start la skip) by
    unfold closeHeader closeArray closeTable checkSpace tokenFmtStrAndSpan tokenFmtStr tokenSpan; moves).out _ _ _ h4)
  obtain ⟨b, s5, h5, h⟩ := bind_inv h
  have j5 := j4.calm ((checkNewline_arr _ _ _).1.out _ _ _ h5) ((checkNewline_arr _ _ _).2.out _ _ _ h5)
  split at h
  · exact finishHeader_arr j5 h
  · obtain ⟨rfl, rfl⟩ := pure_inv h
    exact j5

theorem rootComment_arr (hE : EnvEof E) {r r' : RootSt} {id : Nat} (hty : (pk E s).ty = .comment id) (hJ : JR s r)
    (h : rootComment E (pk E s) id r s = .ok r' s') : JR s' r' := by
  have hr := adv_rest hE (s := s) (by rw [hty]; simp)
  have hr' : rps s.rest = (pk E s).start :: rps s.adv.rest := by
    conv => lhs; rw [hr]
    rfl
  unfold rootComment at h
  rw [bind_next] at h
  unfold getComment at h
  obtain ⟨d, hd, h⟩ := bind_lift_inv h
  have hds : d.span.start = (pk E s).start := by
    obtain ⟨l, -, rfl⟩ := Option.map_eq_some_iff.1 hd
    rfl
  split at h
  · rename_i hreq
    have hp := hJ.req hreq
    obtain ⟨cid, s2, h5, h⟩ := bind_inv h
    cases h5
    generalize hla : r.asts.getLast? = la at h
    cases la with
    | none => cases h
    | some a =>
      dsimp only at h
      obtain ⟨a', ha, h⟩ := bind_lift_inv h
      obtain ⟨rfl, rfl⟩ := pure_inv h
      have hs := last_split hla
      refine hJ.step (new := [d.span.start]) (by simp [cps, adv_storage]) ?_ ?_ ?_ hJ.req
      · rw [hp, hds]
        show ((pk E s).start :: rps s.adv.rest).Sublist (rps s.rest)
        rw [hr']
        exact List.Sublist.refl _
      · intro v hv
        rw [hs]
        simpa [vals_append, vals, appendComment_vals ha] using hv
      · intro c hc
        left
        rw [hs, astComments_append']
        rw [astComments_append', appendComment_free ha] at hc
        exact hc
  · rename_i hreq
    obtain ⟨rfl, rfl⟩ := pure_inv h
    refine hJ.step (new := []) (by simp [adv_storage]) ?_ (fun _ h => h) (fun c hc => .inl hc) (fun h => absurd h hreq)
    rw [hr']
    simp [cp, hds]

theorem rootValue_arr (hE : EnvEof E) {r r' : RootSt} {k : Key} {eq : Pos} (hJ : JR s r)
    (h : rootValue E r k eq s = .ok r' s') : JR s' r' := by
  unfold rootValue at h
  obtain ⟨pos, s1, h1, h'⟩ := bind_inv h
  clear h
  obtain ⟨-, rfl⟩ := lift_inv h1
  have h := h'
  obtain ⟨⟨asts, level⟩, s2, h2, h⟩ := bind_inv h
  obtain ⟨e1, e2, e3⟩ := looseComments_arr h2
  dsimp only at h e2 e3
  obtain ⟨cm, s3, h3, h⟩ := bind_inv h
  obtain ⟨e4, e5⟩ := storeComments_storage h3
  -- in front of the value
  have hsplit : cp r.prevComments = cp (r.prevComments.take pos) ++ cp (r.prevComments.drop pos) := by
    unfold cp; rw [← List.map_append, List.take_append_drop]
  have j3 : JR s3 ⟨asts, [], r.newlineRequired⟩ := by
    have hrest : s3.rest = s1.rest := by rw [e5, e1]
    rcases e3 with ⟨e3, e6⟩ | ⟨e3, e6⟩
    · refine hJ.step (new := cp (r.prevComments.take pos) ++ cp (r.prevComments.drop pos)) (by rw [e4, e3, List.append_assoc]) ?_ e2
        (fun c hc => .inl (by simpa [e6] using hc)) (fun _ => rfl)
      rw [← hsplit, hrest]
      exact List.Sublist.refl _
    · refine hJ.step (new := cp (r.prevComments.drop pos)) (by rw [e4, e3]) ?_ e2 ?_ (fun _ => rfl)
      · rw [hrest]; exact drop_sub
      · intro c hc
        have hc : c ∈ astComments asts := hc
        rw [e6] at hc
        rcases List.mem_append.1 hc with hc | hc
        · exact .inl hc
        · obtain ⟨g1, g2⟩ := sooner_prev hJ hc
          refine .inr ⟨g1, fun p hp => g2 p ?_⟩
          rw [hrest] at hp
          have hp : p ∈ rps s1.rest := by simpa [cp] using hp
          simp [hp]
  have hs3 : Srt s3 := by
    have := j3.srt
    simp only [cp, List.map_nil, List.nil_append] at this
    exact this
  obtain ⟨rv, s4, h4, h⟩ := bind_inv h
  obtain ⟨a4, e6⟩ := (parseValue_arr hE _ _).out _ _ _ hs3 h4
  obtain ⟨new, n1, n2⟩ := a4
  have j4 : JR s4 ⟨asts, [], r.newlineRequired⟩ :=
    j3.step n1 (by simpa [cp] using n2) (fun _ h => h) (fun c hc => .inl hc) (fun _ => rfl)
  split at h
  · rename_i v
    obtain ⟨hv1, hv2⟩ := e6 v rfl
    rw [bind_nextId] at h
    obtain ⟨cm2, -, h⟩ := bind_lift_inv h
    obtain ⟨rfl, rfl⟩ := pure_inv h
    obtain ⟨p1, p2⟩ := push_arr (asts := asts) (a := ⟨cm2, k, eq, v⟩)
    refine ⟨j4.srt, ?_, ?_, fun _ => rfl⟩
    · intro w hw
      rcases p1 w hw with hw | rfl
      · exact j4.arr w hw
      · simpa [cp] using hv1
    · intro c hc
      have hc' : c ∈ astComments asts := by rw [← p2]; exact hc
      obtain ⟨g1, g2⟩ := j4.free c hc'
      refine ⟨g1, fun w hw => ?_⟩
      rcases p1 w hw with hw | rfl
      · exact g2 w hw
      · intro arr q ha hq hb
        have := (j3.free c hc').1 arr.lPar (by simpa [cp] using hv2 arr ha)
        exact sooner_irrefl (sooner_trans this hb.1)
  · obtain ⟨_, s5, h5, h⟩ := bind_inv h
    have j5 := j4.calm ((calm_error _).out _ _ _ h5) ((moves_error _).out _ _ _ h5)
    obtain ⟨_, s6, h6, h⟩ := bind_inv h
    have j6 := j5.calm ((calm_recover _).out _ _ _ h6) ((moves_recover _).out _ _ _ h6)
    obtain ⟨rfl, rfl⟩ := pure_inv h
    exact j6

theorem rootAssignment_arr (hE : EnvEof E) {r r' : RootSt} {t : Token} (hJ : JR s r)
    (h : rootAssignment E t r s = .ok r' s') : JR s' r' := by
  have hen : ∀ {m : Nat} {s s' : PS}, JR s r → expectedNewline E m t s = .ok () s' → JR s' r := by
    intro m s s' hj h
    exact hj.calm ((expectedNewline_arr _ _).1.out _ _ _ h) ((expectedNewline_arr _ _).2.out _ _ _ h)
  have hre : ∀ {s s' : PS}, JR s r → recoverOn E endsLine s = .ok () s' → JR s' r := by
    intro s s' hj h
    exact hj.calm ((calm_recover _).out _ _ _ h) ((moves_recover _).out _ _ _ h)
  have her : ∀ {e : Error} {s s' : PS}, JR s r → error e s = .ok () s' → JR s' r := by
    intro e s s' hj h
    exact hj.calm ((calm_error _).out _ _ _ h) ((moves_error _).out _ _ _ h)
  unfold rootAssignment at h
  rw [bind_mark] at h
  obtain ⟨kr, s1, h1, h⟩ := bind_inv h
  have j1 := hJ.calm (calm_parseKey.out _ _ _ h1) (moves_parseKey.out _ _ _ h1)
  split at h
  · unfold rootEq at h
    rw [bind_peek] at h
    split at h
    · obtain ⟨e, s2, h2, h⟩ := bind_inv h
      have j2 := j1.calm (calm_next.out _ _ _ h2) (moves_next.out _ _ _ h2)
      obtain ⟨b, s3, h3, h⟩ := bind_inv h
      have j3 := j2.calm ((checkNewline_arr _ _ _).1.out _ _ _ h3) ((checkNewline_arr _ _ _).2.out _ _ _ h3)
      split at h
      · exact rootValue_arr hE j3 h
      · obtain ⟨rfl, rfl⟩ := pure_inv h; exact j3
    · obtain ⟨_, s2, h2, h⟩ := bind_inv h
      have j2 := hre j1 h2
      dsimp only at h
      split at h
      · obtain ⟨_, s3, h3, h⟩ := bind_inv h
        obtain ⟨rfl, rfl⟩ := pure_inv h; exact hen j2 h3
      · obtain ⟨⟨f, sp⟩, s3, h3, h⟩ := bind_inv h
        have : Calm (tokenFmtStrAndSpan E (pk E s1)) := by unfold tokenFmtStrAndSpan tokenFmtStr tokenSpan; calm
        have j3 := j2.calm (this.out _ _ _ h3) ((moves_fmt _).out _ _ _ h3)
        dsimp only at h
        obtain ⟨_, s4, h4, h⟩ := bind_inv h
        obtain ⟨rfl, rfl⟩ := pure_inv h; exact her j3 h4
  · dsimp only at h
    split at h
    · obtain ⟨_, s3, h3, h⟩ := bind_inv h
      obtain ⟨rfl, rfl⟩ := pure_inv h; exact hen j1 h3
    · obtain ⟨rfl, rfl⟩ := pure_inv h; exact j1
  · obtain ⟨_, s2, h2, h⟩ := bind_inv h
    have j2 := hre j1 h2
    dsimp only at h
    split at h
    · obtain ⟨_, s3, h3, h⟩ := bind_inv h
      obtain ⟨rfl, rfl⟩ := pure_inv h; exact hen j2 h3
    · obtain ⟨_, s3, h3, h⟩ := bind_inv h
      obtain ⟨rfl, rfl⟩ := pure_inv h; exact her j2 h3

theorem rootLoop_arr (hE : EnvEof E) : ∀ n {s s' : PS} {r r' : RootSt}, JR s r → rootLoop E n r s = .ok r' s' → JR s' r' := by
  intro n
  induction n with
  | zero => intro s s' r r' _ h; cases h
  | succ n ih =>
    intro s s' r r' hJ h
    unfold rootLoop at h
    rw [bind_peek] at h
    generalize hty : (pk E s).ty = ty at h
    split at h
    · obtain ⟨r1, s1, h1, h⟩ := bind_inv h
      exact ih (rootHeader_arr hJ h1) h
    · obtain ⟨r1, s1, h1, h⟩ := bind_inv h
      exact ih (rootComment_arr hE hty hJ h1) h
    · obtain ⟨_, s1, h1, h⟩ := bind_inv h
      have j1 := hJ.calm (calm_next.out _ _ _ h1) (moves_next.out _ _ _ h1)
      exact ih (r := { r with newlineRequired := false }) ⟨j1.srt, j1.arr, j1.free, by simp⟩ h
    · obtain ⟨rfl, rfl⟩ := pure_inv h
      exact hJ
    · obtain ⟨r1, s1, h1, h⟩ := bind_inv h
      exact ih (rootAssignment_arr hE hJ h1) h

end Verif.Toml
