import Verif.Toml.AssocLevel
import Verif.Toml.AssocEntRoot

/-! # Comments: their levels in documents -/

namespace Verif.Toml
open Verif Verif.Spec.Toml

variable {E : Env} {s s' s1 s2 : PS}

/-- The levels of an assignment are right. -/
structure AssLv (n : Nat) (st : List AssocComment) (x : ToplevelAssignment) : Prop where
  level : x.comments.level = n
  fit : Fit st x.assignment.val
  depth : Depth n x.assignment.val

theorem AssLv.stay {n : Nat} {x : ToplevelAssignment} (h : AssLv n s.storage x) (hk : Stay s s') : AssLv n s'.storage x :=
  ⟨h.level, h.fit.stay hk, h.depth⟩

/-- The levels of an item are right. -/
def AstLv (st : List AssocComment) : Ast → Prop
  | .assignment x => AssLv 0 st x
  | .table t => t.comments.level = 0 ∧ ∀ x ∈ t.assignments, AssLv 1 st x
  | .array t => t.comments.level = 0 ∧ ∀ x ∈ t.assignments, AssLv 1 st x
  | .comment _ => True

theorem AstLv.stay {a : Ast} (h : AstLv s.storage a) (hk : Stay s s') : AstLv s'.storage a := by
  cases a with
  | assignment x => exact AssLv.stay h hk
  | table t => exact ⟨h.1, fun x hx => (h.2 x hx).stay hk⟩
  | array t => exact ⟨h.1, fun x hx => (h.2 x hx).stay hk⟩
  | comment c => trivial

/-- The levels of all items are right. -/
def RootLv (s : PS) (asts : List Ast) : Prop := ∀ a ∈ asts, AstLv s.storage a

theorem RootLv.stay {as : List Ast} (h : RootLv s as) (hk : Stay s s') : RootLv s' as := fun a ha => (h a ha).stay hk

theorem RootLv.comments {as : List Ast} {cs : List Comment} (h : RootLv s as) : RootLv s (as ++ cs.map Ast.comment) := by
  intro a ha
  rcases List.mem_append.1 ha with ha | ha
  · exact h a ha
  · obtain ⟨c, -, rfl⟩ := List.mem_map.1 ha
    trivial

theorem RootLv.push {as : List Ast} {x : Ast} (h : RootLv s as) (hx : AstLv s.storage x) : RootLv s (as ++ [x]) := by
  intro a ha
  rcases List.mem_append.1 ha with ha | ha
  · exact h a ha
  · rw [List.mem_singleton.1 ha]; exact hx

theorem RootLv.init {as : List Ast} (h : RootLv s as) : RootLv s as.dropLast := fun a ha => h a ((List.dropLast_sublist as).subset ha)

theorem addComments_lv {p : AssocPos} : ∀ (cs : List Comment) {r a : CommentRange} {s : PS}, addComments r p cs s = .ok a s' →
    a.level = r.level ∧ Stay s s' := by
  intro cs
  induction cs with
  | nil =>
    intro r a s h
    obtain ⟨rfl, rfl⟩ := pure_inv h
    exact ⟨rfl, .refl _⟩
  | cons c cs ih =>
    intro r a s h
    unfold addComments at h
    obtain ⟨r1, s1, h1, h⟩ := bind_inv h
    obtain ⟨e1, e2, -⟩ := addComment_level h1
    obtain ⟨f1, f2⟩ := ih h
    exact ⟨f1.trans e2, (Stay.more e1).trans f2⟩

theorem storeComments_lv {cs : List Comment} {p : AssocPos} {n : Nat} {a : CommentRange} (h : storeComments cs p n s = .ok a s') :
    a.level = n ∧ Stay s s' := by
  unfold storeComments at h
  rw [bind_nextId] at h
  exact addComments_lv _ h

theorem finishHeader_lv {ovf : Bool} {r r' : RootSt} {l : Pos} {la : Option Pos} {k : Option Key} {q : Option Pos × Option Pos}
    (hA : RootLv s r.asts) (h : finishHeader ovf r l la k q s = .ok r' s') : RootLv s' r'.asts := by
  unfold finishHeader at h
  obtain ⟨pos, s1, h1, h'⟩ := bind_inv h
  clear h
  obtain ⟨-, rfl⟩ := lift_inv h1
  dsimp only at h'
  have h := h'
  obtain ⟨cm, s2, h2, h⟩ := bind_inv h
  obtain ⟨e1, e2⟩ := storeComments_lv h2
  have := (hA.comments (cs := r.prevComments.take pos)).stay e2
  split at h
  · obtain ⟨hd, -, h⟩ := bind_lift_inv h
    obtain ⟨rfl, rfl⟩ := pure_inv h
    exact this.push ⟨e1, by simp⟩
  · obtain ⟨hd, -, h⟩ := bind_lift_inv h
    obtain ⟨rfl, rfl⟩ := pure_inv h
    exact this.push ⟨e1, by simp⟩

theorem rootHeader_lv {t : Token} {r r' : RootSt} (hJ : RootLv s r.asts) (h : rootHeader E t r s = .ok r' s') : RootLv s' r'.asts := by
  unfold rootHeader at h
  rw [bind_mark] at h
  obtain ⟨t, s1, h1, h⟩ := bind_inv h
  have j1 := hJ.stay (.eq (calm_next.out _ _ _ h1))
  dsimp only at h
  obtain ⟨la, s2, h2, h⟩ := bind_inv h
  have j2 := j1.stay (.eq ((calm_openArray _).out _ _ _ h2))
  obtain ⟨⟨key, skip⟩, s3, h3, h⟩ := bind_inv h
  have j3 := j2.stay (.eq (calm_headerKey.out _ _ _ h3))
  dsimp only at h
  obtain ⟨q, s4, h4, h⟩ := bind_inv h
  have j4 := j3.stay (.eq ((calm_closeHeader _ _ _).out _ _ _ h4))
  obtain ⟨b, s5, h5, h⟩ := bind_inv h
  have j5 := j4.stay (.eq ((checkNewline_arr _ _ _).1.out _ _ _ h5))
  split at h
  · exact finishHeader_lv j5 h
  · obtain ⟨rfl, rfl⟩ := pure_inv h
    exact j5

theorem appendLast_lv {n : Nat} {st : List AssocComment} : ∀ (as : List ToplevelAssignment) (id : Nat) (bs : List ToplevelAssignment),
    appendLast as id = some bs → (∀ x ∈ as, AssLv n st x) → ∀ x ∈ bs, AssLv n st x := by
  intro as
  induction as with
  | nil => intro id bs h; cases h
  | cons a as ih =>
    intro id bs h hA
    cases as with
    | nil =>
      simp only [appendLast, Option.bind_eq_bind, Option.pure_def, Option.bind_eq_some_iff, Option.some.injEq] at h
      obtain ⟨c, hc, rfl⟩ := h
      intro x hx
      rw [List.mem_singleton.1 hx]
      have ha := hA a (by simp)
      exact ⟨(append_level hc).1.trans ha.level, ha.fit, ha.depth⟩
    | cons b as =>
      simp only [appendLast, Option.bind_eq_bind, Option.pure_def, Option.bind_eq_some_iff, Option.some.injEq] at h
      obtain ⟨bs', hx, rfl⟩ := h
      intro x hx'
      rcases List.mem_cons.1 hx' with rfl | hx'
      · exact hA x (by simp)
      · exact ih _ _ hx (fun y hy => hA y (by simp [List.mem_cons.1 hy])) x hx'

theorem appendComment_lv {a b : Ast} {id : Nat} {st : List AssocComment} (h : a.appendComment id = some b) (hA : AstLv st a) : AstLv st b := by
  cases a with
  | assignment a =>
    simp only [Ast.appendComment, Option.map_eq_some_iff] at h
    obtain ⟨c, hc, rfl⟩ := h
    exact ⟨(append_level hc).1.trans hA.level, hA.fit, hA.depth⟩
  | table t =>
    simp only [Ast.appendComment, Option.map_eq_some_iff, Table.appendComment] at h
    obtain ⟨c, hc, rfl⟩ := h
    split at hc
    · simp only [Option.bind_eq_bind, Option.pure_def, Option.bind_eq_some_iff, Option.some.injEq] at hc
      obtain ⟨x, hx, rfl⟩ := hc
      exact ⟨(append_level hx).1.trans hA.1, hA.2⟩
    · simp only [Option.bind_eq_bind, Option.pure_def, Option.bind_eq_some_iff, Option.some.injEq] at hc
      obtain ⟨x, hx, rfl⟩ := hc
      exact ⟨hA.1, appendLast_lv _ _ _ hx hA.2⟩
  | array t =>
    simp only [Ast.appendComment, Option.map_eq_some_iff, ArrayEntry.appendComment] at h
    obtain ⟨c, hc, rfl⟩ := h
    split at hc
    · simp only [Option.bind_eq_bind, Option.pure_def, Option.bind_eq_some_iff, Option.some.injEq] at hc
      obtain ⟨x, hx, rfl⟩ := hc
      exact ⟨(append_level hx).1.trans hA.1, hA.2⟩
    · simp only [Option.bind_eq_bind, Option.pure_def, Option.bind_eq_some_iff, Option.some.injEq] at hc
      obtain ⟨x, hx, rfl⟩ := hc
      exact ⟨hA.1, appendLast_lv _ _ _ hx hA.2⟩
  | comment c => cases h

theorem rootComment_lv {t : Token} {r r' : RootSt} {id : Nat} (hJ : RootLv s r.asts) (h : rootComment E t id r s = .ok r' s') :
    RootLv s' r'.asts := by
  unfold rootComment at h
  rw [bind_next] at h
  unfold getComment at h
  obtain ⟨d, hd, h⟩ := bind_lift_inv h
  split at h
  · obtain ⟨cid, s2, h5, h⟩ := bind_inv h
    have k : Stay s s2 := by
      cases h5
      exact Stay.more (new := [⟨.lineEnd, 0, d⟩]) (by simp [adv_storage])
    generalize hla : r.asts.getLast? = la at h
    cases la with
    | none => cases h
    | some a =>
      dsimp only at h
      obtain ⟨a', ha, h⟩ := bind_lift_inv h
      obtain ⟨rfl, rfl⟩ := pure_inv h
      have hJ := hJ.stay k
      exact hJ.init.push (appendComment_lv ha (hJ a (List.mem_of_getLast? hla)))
  · obtain ⟨rfl, rfl⟩ := pure_inv h
    exact hJ.stay (.eq adv_storage)

/-- Is the last item a table or an element of an array of tables? -/
def openTable (as : List Ast) : Bool :=
  match as.getLast? with
  | some (.table _) => true
  | some (.array _) => true
  | _ => false

theorem looseComments_lv {r : RootSt} {cs : List Comment} {o : List Ast × Nat} (hJ : RootLv s r.asts) (h : looseComments r cs s = .ok o s') :
    RootLv s' o.1 ∧ Stay s s' ∧ o.2 = if openTable o.1 then 1 else 0 := by
  unfold looseComments at h
  generalize hl : r.asts.getLast? = la at h
  split at h
  · rename_i t
    obtain ⟨c, s1, h1, h⟩ := bind_inv h
    obtain ⟨e1, e2⟩ := addComments_lv _ h1
    obtain ⟨rfl, rfl⟩ := pure_inv h
    have ht := hJ _ (List.mem_of_getLast? hl)
    have hJ := hJ.stay e2
    have ht := hJ _ (List.mem_of_getLast? hl)
    exact ⟨hJ.init.push ⟨e1.trans ht.1, ht.2⟩, e2, by simp [openTable]⟩
  · rename_i t
    obtain ⟨c, s1, h1, h⟩ := bind_inv h
    obtain ⟨e1, e2⟩ := addComments_lv _ h1
    obtain ⟨rfl, rfl⟩ := pure_inv h
    have hJ := hJ.stay e2
    have ht := hJ _ (List.mem_of_getLast? hl)
    exact ⟨hJ.init.push ⟨e1.trans ht.1, ht.2⟩, e2, by simp [openTable]⟩
  · rename_i hn1 hn2
    obtain ⟨rfl, rfl⟩ := pure_inv h
    refine ⟨hJ.comments, .refl _, ?_⟩
    have : openTable (r.asts ++ cs.map Ast.comment) = false := by
      unfold openTable
      cases cs with
      | nil =>
        simp only [List.map_nil, List.append_nil, hl]
      | cons c cs =>
        rw [List.getLast?_append, List.getLast?_map]
        have : (c :: cs).getLast? = some ((c :: cs).getLast (by simp)) := List.getLast?_eq_some_getLast _
        rw [this]
        rfl
    rw [this]
    simp

theorem push_lv {as : List Ast} {x : ToplevelAssignment} (hA : RootLv s as) (hx : AssLv (if openTable as then 1 else 0) s.storage x) :
    RootLv s (pushAssignment as x) := by
  unfold pushAssignment
  unfold openTable at hx
  generalize hl : as.getLast? = la at *
  split
  · rename_i t
    have ht := hA _ (List.mem_of_getLast? hl)
    refine hA.init.push ⟨ht.1, fun y hy => ?_⟩
    rcases List.mem_append.1 hy with hy | hy
    · exact ht.2 y hy
    · rw [List.mem_singleton.1 hy]; exact hx
  · rename_i t
    have ht := hA _ (List.mem_of_getLast? hl)
    refine hA.init.push ⟨ht.1, fun y hy => ?_⟩
    rcases List.mem_append.1 hy with hy | hy
    · exact ht.2 y hy
    · rw [List.mem_singleton.1 hy]; exact hx
  · refine hA.push ?_
    split at hx <;> simp_all [AstLv]

theorem rootValue_lv (hE : EnvEof E) {r r' : RootSt} {k : Key} {eq : Pos} (hJ : RootLv s r.asts)
    (h : rootValue E r k eq s = .ok r' s') : RootLv s' r'.asts := by
  unfold rootValue at h
  obtain ⟨pos, s1, h1, h'⟩ := bind_inv h
  clear h
  obtain ⟨-, rfl⟩ := lift_inv h1
  have h := h'
  obtain ⟨⟨asts, level⟩, s2, h2, h⟩ := bind_inv h
  obtain ⟨a1, -, a3⟩ := looseComments_lv hJ h2
  dsimp only at h a1 a3
  obtain ⟨cm, s3, h3, h⟩ := bind_inv h
  obtain ⟨b1, b2⟩ := storeComments_lv h3
  obtain ⟨rv, s4, h4, h⟩ := bind_inv h
  have e4 := parseValue_level hE _ _ _ _ _ h4
  have a4 := (a1.stay b2).stay e4.stay
  split at h
  · rename_i v
    rw [bind_nextId] at h
    obtain ⟨cm2, hc, h⟩ := bind_lift_inv h
    obtain ⟨rfl, rfl⟩ := pure_inv h
    obtain ⟨f1, f2⟩ := e4.fit _ rfl
    refine push_lv a4 ?_
    rw [← a3]
    exact ⟨(extend_level hc).1.trans b1, f1, f2⟩
  · rw [bind_error] at h
    obtain ⟨_, s5, h5, h⟩ := bind_inv h
    obtain ⟨rfl, rfl⟩ := pure_inv h
    exact a4.stay (.eq ((calm_recover _).out (s4.err _) _ _ h5))

theorem rootAssignment_lv (hE : EnvEof E) {r r' : RootSt} {t : Token} (hA : RootLv s r.asts)
    (h : rootAssignment E t r s = .ok r' s') : RootLv s' r'.asts := by
  unfold rootAssignment at h
  rw [bind_mark] at h
  obtain ⟨kr, s1, h1, h⟩ := bind_inv h
  have j1 := hA.stay (.eq (calm_parseKey.out _ _ _ h1))
  clear h1
  have quiet : ∀ {m : M RootSt}, Calm m → Ens m (fun r1 => r1 = r) → m s1 = .ok r' s' → RootLv s' r'.asts := by
    intro m h1 h2 h3
    rw [h2 _ _ _ h3]
    exact j1.stay (.eq (h1.out _ _ _ h3))
  split at h
  · rename_i key
    unfold rootEq at h
    rw [bind_peek] at h
    split at h
    · obtain ⟨e, s2, h2, h⟩ := bind_inv h
      have j2 := j1.stay (.eq (calm_next.out _ _ _ h2))
      obtain ⟨go, s3, h3, h⟩ := bind_inv h
      have j3 := j2.stay (.eq ((checkNewline_arr _ _ _).1.out _ _ _ h3))
      split at h
      · exact rootValue_lv hE j3 h
      · obtain ⟨rfl, rfl⟩ := pure_inv h
        exact j3
    · obtain ⟨_, s2, h2, h⟩ := bind_inv h
      have j2 := j1.stay (.eq ((calm_recover _).out _ _ _ h2))
      split at h
      · obtain ⟨_, s3, h3, h⟩ := bind_inv h
        obtain ⟨rfl, rfl⟩ := pure_inv h
        exact j2.stay (.eq ((expectedNewline_arr _ _).1.out _ _ _ h3))
      · obtain ⟨f, s3, h3, h⟩ := bind_inv h
        have hs3 : s3.storage = s2.storage := by
          refine Calm.out (m := tokenFmtStrAndSpan E _) ?_ _ _ _ h3
          unfold tokenFmtStrAndSpan tokenFmtStr tokenSpan
          calm
        dsimp only at h
        rw [bind_error] at h
        obtain ⟨rfl, rfl⟩ := pure_inv h
        exact j2.stay (.eq hs3)
  · split at h
    · obtain ⟨_, s3, h3, h⟩ := bind_inv h
      obtain ⟨rfl, rfl⟩ := pure_inv h
      exact j1.stay (.eq ((expectedNewline_arr _ _).1.out _ _ _ h3))
    · obtain ⟨rfl, rfl⟩ := pure_inv h
      exact j1
  · obtain ⟨_, s2, h2, h⟩ := bind_inv h
    have j2 := j1.stay (.eq ((calm_recover _).out _ _ _ h2))
    split at h
    · obtain ⟨_, s3, h3, h⟩ := bind_inv h
      obtain ⟨rfl, rfl⟩ := pure_inv h
      exact j2.stay (.eq ((expectedNewline_arr _ _).1.out _ _ _ h3))
    · rw [bind_error] at h
      obtain ⟨rfl, rfl⟩ := pure_inv h
      exact j2.stay (.eq rfl)

theorem rootLoop_lv (hE : EnvEof E) : ∀ (n : Nat) {s : PS} {r r' : RootSt}, RootLv s r.asts → rootLoop E n r s = .ok r' s' → RootLv s' r'.asts := by
  intro n
  induction n with
  | zero => intro s r r' _ h; cases h
  | succ n ih =>
    intro s r r' hA h
    unfold rootLoop at h
    rw [bind_peek] at h
    generalize hty : (pk E s).ty = ty at h
    split at h
    · obtain ⟨r1, s1, h1, h⟩ := bind_inv h
      exact ih (rootHeader_lv hA h1) h
    · obtain ⟨r1, s1, h1, h⟩ := bind_inv h
      exact ih (rootComment_lv hA h1) h
    · rw [bind_next] at h
      exact ih (r := { r with newlineRequired := false }) (hA.stay (s' := s.adv) (.eq adv_storage)) h
    · obtain ⟨rfl, rfl⟩ := pure_inv h
      exact hA
    · obtain ⟨r1, s1, h1, h⟩ := bind_inv h
      exact ih (rootAssignment_lv hE hA h1) h

end Verif.Toml
