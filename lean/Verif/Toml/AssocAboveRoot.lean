import Verif.Toml.AssocAbove

/-! # Comments: those that are above something; documents -/

namespace Verif.Toml
open Verif Verif.Spec.Toml

variable {E : Env} {s s' s1 s2 : PS} {W W' : Nat → Prop}

/-- The places of the header and the assignments of an item. -/
def placesIn : Ast → List Pos
  | .assignment a => [a.assignment.eq]
  | .table t => t.header.lPar :: t.assignments.map (·.assignment.eq)
  | .array t => t.header.lPars.1 :: t.assignments.map (·.assignment.eq)
  | .comment _ => []

/-- The lines that can have comments above. -/
def WL (asts : List Ast) (l : Nat) : Prop :=
  ∃ a ∈ asts, (∃ p ∈ placesIn a, p.line = l) ∨ ∃ v ∈ astValues a, EntryOn v l

theorem WL.mono {a b : List Ast} (h : ∀ x ∈ a, ∃ y ∈ b, (∀ p ∈ placesIn x, p ∈ placesIn y) ∧ ∀ v ∈ astValues x, v ∈ astValues y) {l : Nat}
    (hl : WL a l) : WL b l := by
  obtain ⟨x, hx, hl⟩ := hl
  obtain ⟨y, hy, h1, h2⟩ := h x hx
  refine ⟨y, hy, ?_⟩
  rcases hl with ⟨p, hp, e⟩ | ⟨v, hv, e⟩
  · exact .inl ⟨p, h1 p hp, e⟩
  · exact .inr ⟨v, h2 v hv, e⟩

theorem WL.app {a b : List Ast} {l : Nat} (hl : WL a l) : WL (a ++ b) l :=
  hl.mono fun x hx => ⟨x, by simp [hx], fun _ h => h, fun _ h => h⟩

theorem WL.last {as : List Ast} {x y : Ast} (hs : as.getLast? = some x) (h1 : ∀ p ∈ placesIn x, p ∈ placesIn y)
    (h2 : ∀ v ∈ astValues x, v ∈ astValues y) {l : Nat} (hl : WL as l) : WL (as.dropLast ++ [y]) l := by
  have hs := last_split hs
  rw [hs] at hl
  refine hl.mono fun z hz => ?_
  rcases List.mem_append.1 hz with hz | hz
  · exact ⟨z, by simp [hz], fun _ h => h, fun _ h => h⟩
  · rw [List.mem_singleton.1 hz]
    exact ⟨y, by simp, h1, h2⟩

theorem appendLast_places : ∀ (as : List ToplevelAssignment) (id : Nat) (bs : List ToplevelAssignment), appendLast as id = some bs →
    bs.map (·.assignment.eq) = as.map (·.assignment.eq) := by
  intro as
  induction as with
  | nil => intro id bs h; cases h
  | cons a as ih =>
    intro id bs h
    cases as with
    | nil =>
      simp only [appendLast, Option.bind_eq_bind, Option.pure_def, Option.bind_eq_some_iff, Option.some.injEq] at h
      obtain ⟨x, -, rfl⟩ := h
      rfl
    | cons b as =>
      simp only [appendLast, Option.bind_eq_bind, Option.pure_def, Option.bind_eq_some_iff, Option.some.injEq] at h
      obtain ⟨x, hx, rfl⟩ := h
      have := ih _ _ hx
      rw [List.map_cons, this]
      rfl

theorem appendComment_places {a b : Ast} {id : Nat} (h : a.appendComment id = some b) : placesIn b = placesIn a := by
  cases a with
  | assignment a =>
    simp only [Ast.appendComment, Option.map_eq_some_iff] at h
    obtain ⟨c, -, rfl⟩ := h
    rfl
  | table t =>
    simp only [Ast.appendComment, Option.map_eq_some_iff, Table.appendComment] at h
    obtain ⟨c, hc, rfl⟩ := h
    split at hc
    · simp only [Option.bind_eq_bind, Option.pure_def, Option.bind_eq_some_iff, Option.some.injEq] at hc
      obtain ⟨x, -, rfl⟩ := hc
      rfl
    · simp only [Option.bind_eq_bind, Option.pure_def, Option.bind_eq_some_iff, Option.some.injEq] at hc
      obtain ⟨x, hx, rfl⟩ := hc
      simp only [placesIn, appendLast_places _ _ _ hx]
  | array t =>
    simp only [Ast.appendComment, Option.map_eq_some_iff, ArrayEntry.appendComment] at h
    obtain ⟨c, hc, rfl⟩ := h
    split at hc
    · simp only [Option.bind_eq_bind, Option.pure_def, Option.bind_eq_some_iff, Option.some.injEq] at hc
      obtain ⟨x, -, rfl⟩ := hc
      rfl
    · simp only [Option.bind_eq_bind, Option.pure_def, Option.bind_eq_some_iff, Option.some.injEq] at hc
      obtain ⟨x, hx, rfl⟩ := hc
      simp only [placesIn, appendLast_places _ _ _ hx]
  | comment c => cases h

theorem WL.item {asts : List Ast} {l : Nat} (h : WL asts l) :
    (∃ p r, HasItem asts p r ∧ p.line = l) ∨ ∃ x ∈ asts, ∃ v ∈ astValues x, EntryOn v l := by
  obtain ⟨a, ha, ⟨p, hp, e⟩ | hv⟩ := h
  · left
    cases a with
    | assignment x =>
      rw [List.mem_singleton.1 hp] at e
      exact ⟨_, _, .root ha, e⟩
    | table t =>
      rcases List.mem_cons.1 hp with rfl | hp
      · exact ⟨_, _, .table ha rfl, e⟩
      · obtain ⟨x, hx, rfl⟩ := List.mem_map.1 hp
        exact ⟨_, _, .inTable ha rfl hx, e⟩
    | array t =>
      rcases List.mem_cons.1 hp with rfl | hp
      · exact ⟨_, _, .table ha rfl, e⟩
      · obtain ⟨x, hx, rfl⟩ := List.mem_map.1 hp
        exact ⟨_, _, .inTable ha rfl hx, e⟩
    | comment c => cases hp
  · exact .inr ⟨a, ha, hv⟩

/-! ## The comments directly above -/

theorem Consec.cover : ∀ {cs : List Comment} {l : Nat}, Consec cs l → ∀ c ∈ cs,
    c.span.start.line < l ∧ ∀ j, c.span.start.line < j → j < l → ∃ d ∈ cs, d.span.start.line = j := by
  intro cs
  induction cs with
  | nil => intro l _ c hc; cases hc
  | cons d cs ih =>
    intro l h c hc
    obtain ⟨h1, h2⟩ := h
    rcases List.mem_cons.1 hc with rfl | hc
    · exact ⟨by omega, fun j _ _ => by omega⟩
    · obtain ⟨h3, h4⟩ := ih h2 c hc
      refine ⟨by omega, fun j h5 h6 => ?_⟩
      by_cases hj : j = l - 1
      · exact ⟨d, by simp, by omega⟩
      · obtain ⟨e, he, h7⟩ := h4 j h5 (by omega)
        exact ⟨e, by simp [he], h7⟩

theorem assocPosition_consec : ∀ (cs : List Comment) (l i : Nat) (o : Option Nat), assocPosition cs l i = some o →
    (o = none → Consec cs l) ∧ ∀ n, o = some n → ∃ k, n = i + k ∧ k ≤ cs.length ∧ Consec (cs.take k) l := by
  intro cs
  induction cs with
  | nil =>
    intro l i o h
    cases h
    exact ⟨fun _ => trivial, by simp⟩
  | cons c cs ih =>
    intro l i o h
    unfold assocPosition at h
    obtain ⟨l', hl, h⟩ := Option.bind_eq_some_iff.1 h
    have hl' : l' = l - 1 := by
      unfold subU at hl
      split at hl
      · cases hl; rfl
      · cases hl
    subst hl'
    split at h
    · rename_i hc
      obtain ⟨h1, h2⟩ := ih _ _ _ h
      refine ⟨fun ho => ⟨hc, h1 ho⟩, fun n hn => ?_⟩
      obtain ⟨k, e1, e2, e3⟩ := h2 n hn
      exact ⟨k + 1, by omega, by simp; omega, by rw [List.take_succ_cons]; exact ⟨hc, e3⟩⟩
    · cases h
      refine ⟨by simp, fun n hn => ?_⟩
      cases hn
      exact ⟨0, rfl, by omega, by simp [Consec]⟩

theorem findAssoc_consec {cs : List Comment} {l pos : Nat} (h : findAssociatedComments cs l s = .ok pos s') :
    Consec (cs.drop pos).reverse l := by
  unfold findAssociatedComments at h
  obtain ⟨h1, rfl⟩ := lift_inv h
  obtain ⟨o, ho, h1⟩ := Option.bind_eq_some_iff.1 h1
  obtain ⟨g1, g2⟩ := assocPosition_consec _ _ _ _ ho
  cases o with
  | none =>
    cases h1
    simpa using g1 rfl
  | some n =>
    obtain ⟨k, rfl, e2, e3⟩ := g2 _ rfl
    simp only [List.length_reverse] at e2
    dsimp only at h1
    rw [subU_le (by omega)] at h1
    cases h1
    rw [List.take_reverse] at e3
    simpa using e3

theorem addComments_more {p : AssocPos} : ∀ (cs : List Comment) {s : PS} {r a : CommentRange}, addComments r p cs s = .ok a s' →
    s'.storage = s.storage ++ cs.map (fun c => ⟨p, r.level, c⟩) := by
  intro cs
  induction cs with
  | nil =>
    intro s r a h
    obtain ⟨-, rfl⟩ := pure_inv h
    simp
  | cons c cs ih =>
    intro s r a h
    unfold addComments at h
    obtain ⟨r1, s1, h1, h2⟩ := bind_inv h
    obtain ⟨rfl, -⟩ := addComment_storage h1
    have hl : r1.level = r.level := by
      unfold addComment at h1
      obtain ⟨id, s1, h3, h4⟩ := bind_inv h1
      cases h3
      obtain ⟨h5, -⟩ := lift_inv h4
      unfold CommentRange.append at h5
      simp only [Option.bind_eq_bind, Option.pure_def, Option.bind_eq_some_iff, Option.some.injEq] at h5
      obtain ⟨_, _, rfl⟩ := h5
      rfl
    rw [ih h2, hl]
    simp [PS.stored]

theorem AboveOk.adds (h : AboveOk W s.storage) {p : AssocPos} (hp : p ≠ .above) {cs : List Comment} {r a : CommentRange}
    (hr : addComments r p cs s = .ok a s') : AboveOk W s'.storage := by
  rw [addComments_more cs hr]
  intro d hd hq
  rcases List.mem_append.1 hd with hd | hd
  · obtain ⟨l, h1, h2, h3⟩ := h d hd hq
    exact ⟨l, h1, h2, h3.mono (fun x hx => by rw [List.map_append]; exact List.mem_append_left _ hx)⟩
  · obtain ⟨c, -, rfl⟩ := List.mem_map.1 hd
    exact absurd hq hp

theorem AboveOk.store (h : AboveOk W s.storage) {cs : List Comment} {level l : Nat} {a : CommentRange} (hc : Consec cs.reverse l) (hl : W l)
    (hr : storeComments cs .above level s = .ok a s') : AboveOk W s'.storage := by
  unfold storeComments at hr
  rw [bind_nextId] at hr
  rw [addComments_more cs hr]
  intro d hd hq
  rcases List.mem_append.1 hd with hd | hd
  · obtain ⟨l, h1, h2, h3⟩ := h d hd hq
    exact ⟨l, h1, h2, h3.mono (fun x hx => by rw [List.map_append]; exact List.mem_append_left _ hx)⟩
  · obtain ⟨c, hm, rfl⟩ := List.mem_map.1 hd
    obtain ⟨h1, h2⟩ := hc.cover c (by simpa using hm)
    refine ⟨l, hl, h1, fun j h3 h4 => ?_⟩
    obtain ⟨e, he, h5⟩ := h2 j h3 h4
    refine ⟨lk ⟨.above, level, e⟩, ?_, h5, by simp [lk]⟩
    rw [List.map_append]
    exact List.mem_append_right _ (List.mem_map.2 ⟨_, List.mem_map.2 ⟨e, by simpa using he, rfl⟩, rfl⟩)

/-! ## Items -/

theorem looseComments_above {r : RootSt} {cs : List Comment} {o : List Ast × Nat} (hA : AboveOk W s.storage)
    (h : looseComments r cs s = .ok o s') : AboveOk W s'.storage ∧ ∀ l, WL r.asts l → WL o.1 l := by
  unfold looseComments at h
  generalize hg : r.asts.getLast? = la at h
  split at h
  · obtain ⟨c, s1, h1, h⟩ := bind_inv h
    obtain ⟨rfl, rfl⟩ := pure_inv h
    refine ⟨hA.adds (by simp) h1, fun l hl => ?_⟩
    refine WL.last hg ?_ ?_ hl
    · exact fun _ h => h
    · exact fun _ h => h
  · obtain ⟨c, s1, h1, h⟩ := bind_inv h
    obtain ⟨rfl, rfl⟩ := pure_inv h
    refine ⟨hA.adds (by simp) h1, fun l hl => ?_⟩
    refine WL.last hg ?_ ?_ hl
    · exact fun _ h => h
    · exact fun _ h => h
  · obtain ⟨rfl, rfl⟩ := pure_inv h
    exact ⟨hA, fun l hl => hl.app⟩

theorem push_above {asts : List Ast} {a : ToplevelAssignment} {l : Nat} :
    (WL asts l → WL (pushAssignment asts a) l) ∧ (a.assignment.eq.line = l → WL (pushAssignment asts a) l) ∧
    (EntryOn a.assignment.val l → WL (pushAssignment asts a) l) := by
  unfold pushAssignment
  generalize hg : asts.getLast? = la
  split
  · refine ⟨fun hl => hl.last hg ?_ ?_, fun hl => ⟨_, List.mem_append_right _ (List.mem_singleton.2 rfl), .inl ⟨_, ?_, hl⟩⟩,
      fun hl => ⟨_, List.mem_append_right _ (List.mem_singleton.2 rfl), .inr ⟨_, ?_, hl⟩⟩⟩
    · intro p hp
      simp only [placesIn, List.map_append, List.mem_cons, List.mem_append] at hp ⊢
      grind
    · intro p hp
      simp only [astValues, List.map_append, List.mem_append] at hp ⊢
      grind
    · simp [placesIn]
    · simp [astValues]
  · refine ⟨fun hl => hl.last hg ?_ ?_, fun hl => ⟨_, List.mem_append_right _ (List.mem_singleton.2 rfl), .inl ⟨_, ?_, hl⟩⟩,
      fun hl => ⟨_, List.mem_append_right _ (List.mem_singleton.2 rfl), .inr ⟨_, ?_, hl⟩⟩⟩
    · intro p hp
      simp only [placesIn, List.map_append, List.mem_cons, List.mem_append] at hp ⊢
      grind
    · intro p hp
      simp only [astValues, List.map_append, List.mem_append] at hp ⊢
      grind
    · simp [placesIn]
    · simp [astValues]
  · exact ⟨fun hl => hl.app, fun hl => ⟨_, List.mem_append_right _ (List.mem_singleton.2 rfl), .inl ⟨_, by simp [placesIn], hl⟩⟩,
      fun hl => ⟨_, List.mem_append_right _ (List.mem_singleton.2 rfl), .inr ⟨_, by simp [astValues], hl⟩⟩⟩

theorem finishHeader_above {ovf : Bool} {r r' : RootSt} {l : Pos} {la : Option Pos} {k : Option Key} {q : Option Pos × Option Pos}
    (hA : AboveOk (WL r.asts) s.storage) (h : finishHeader ovf r l la k q s = .ok r' s') : AboveOk (WL r'.asts) s'.storage := by
  unfold finishHeader at h
  obtain ⟨pos, s1, h1, h'⟩ := bind_inv h
  clear h
  have hc := findAssoc_consec h1
  obtain ⟨-, rfl⟩ := lift_inv h1
  dsimp only at h'
  have h := h'
  obtain ⟨cm, s2, h2, h⟩ := bind_inv h
  split at h
  · obtain ⟨hd, hh, h⟩ := bind_lift_inv h
    obtain ⟨rfl, rfl⟩ := pure_inv h
    refine AboveOk.store (hA.mono fun l hl => ?_) hc ?_ h2
    · rw [List.append_assoc]; exact hl.app
    · refine ⟨_, List.mem_append_right _ (List.mem_singleton.2 rfl), .inl ⟨l, ?_, rfl⟩⟩
      unfold ArrayHeader.new at hh
      simp only [Option.bind_eq_bind, Option.pure_def, Option.bind_eq_some_iff, Option.some.injEq] at hh
      obtain ⟨_, _, _, _, rfl⟩ := hh
      simp [placesIn]
  · obtain ⟨hd, hh, h⟩ := bind_lift_inv h
    obtain ⟨rfl, rfl⟩ := pure_inv h
    refine AboveOk.store (hA.mono fun l hl => ?_) hc ?_ h2
    · rw [List.append_assoc]; exact hl.app
    · refine ⟨_, List.mem_append_right _ (List.mem_singleton.2 rfl), .inl ⟨l, ?_, rfl⟩⟩
      unfold TableHeader.new at hh
      simp only [Option.bind_eq_bind, Option.pure_def, Option.bind_eq_some_iff, Option.some.injEq] at hh
      obtain ⟨_, _, rfl⟩ := hh
      simp [placesIn]

theorem rootHeader_above {r r' : RootSt} {t : Token} (hA : AboveOk (WL r.asts) s.storage) (h : rootHeader E t r s = .ok r' s')
    (he : s'.errors = []) : AboveOk (WL r'.asts) s'.storage := by
  unfold rootHeader at h
  rw [bind_mark] at h
  obtain ⟨t, s1, h1, h⟩ := bind_inv h
  have e1 := calm_next.out _ _ _ h1
  dsimp only at h
  obtain ⟨la, s2, h2, h⟩ := bind_inv h
  have e2 := (calm_openArray _).out _ _ _ h2
  obtain ⟨⟨key, skip⟩, s3, h3, h⟩ := bind_inv h
  have e3 := calm_headerKey.out _ _ _ h3
  dsimp only at h
  obtain ⟨q, s4, h4, h⟩ := bind_inv h
  have e4 := (calm_closeHeader _ _ _).out _ _ _ h4
  obtain ⟨go, s5, h5, h6, he5⟩ := bind_clean h he (by
    dirty
    all_goals exact (quiet_finishHeader _ _ _ _ _ _).dirty)
  obtain ⟨-, rfl, rfl⟩ := checkNewline_sound h5 he5
  rw [if_pos rfl] at h6
  exact finishHeader_above (by rw [e4, e3, e2, e1]; exact hA) h6

theorem rootComment_above {r r' : RootSt} {t : Token} {id : Nat} (hA : AboveOk (WL r.asts) s.storage)
    (h : rootComment E t id r s = .ok r' s') : AboveOk (WL r'.asts) s'.storage := by
  unfold rootComment at h
  rw [bind_next] at h
  unfold getComment at h
  obtain ⟨d, -, h⟩ := bind_lift_inv h
  split at h
  · obtain ⟨cid, s2, h5, h⟩ := bind_inv h
    cases h5
    generalize hla : r.asts.getLast? = la at h
    cases la with
    | none => cases h
    | some a =>
      dsimp only at h
      obtain ⟨a', ha, h⟩ := bind_lift_inv h
      obtain ⟨rfl, rfl⟩ := pure_inv h
      refine AboveOk.add (AboveOk.mono (W := WL r.asts) (by rw [adv_storage]; exact hA) fun l hl => ?_) (by simp)
      exact hl.last hla (fun p hp => by rw [appendComment_places ha]; exact hp) (fun v hv => by rw [appendComment_vals ha]; exact hv)
  · obtain ⟨rfl, rfl⟩ := pure_inv h
    rw [adv_storage]
    exact hA

theorem rootAssignment_above (hE : EnvOk E) {r r' : RootSt} {t : Token} (hC : Cx E s) (hA : AboveOk (WL r.asts) s.storage)
    (h : rootAssignment E t r s = .ok r' s') (he : s'.errors = []) : AboveOk (WL r'.asts) s'.storage := by
  unfold rootAssignment at h
  rw [bind_mark] at h
  obtain ⟨kr, s1, h1, h, he1⟩ := bind_clean h he (by
    dirty
    all_goals first
      | exact dirty_rootEq _ _ _ _ | exact dirty_expectedNewline _ _)
  have hk := parseKey_sound hE hC h1 he1
  have e1 := calm_parseKey.out _ _ _ h1
  clear h1
  split at h
  · rename_i key
    unfold rootEq at h
    rw [bind_peek] at h
    split at h
    · rename_i heq
      rw [bind_next] at h
      obtain ⟨go, s3, h3, h, he3⟩ := bind_clean h he (by
        dirty
        all_goals exact dirty_rootValue _ _ _)
      obtain ⟨-, rfl, rfl⟩ := checkNewline_sound h3 he3
      rw [if_pos rfl] at h
      have k2 : AboveOk (WL r.asts) s1.adv.storage := by rw [adv_storage, e1]; exact hA
      unfold rootValue at h
      obtain ⟨pos, s4, h4, h⟩ := bind_inv h
      have hcs := findAssoc_consec h4
      have k4 : AboveOk (WL r.asts) s4.storage := by obtain ⟨-, rfl⟩ := lift_inv h4; exact k2
      obtain ⟨⟨asts, level⟩, s5, h5, h⟩ := bind_inv h
      obtain ⟨k5, g5⟩ := looseComments_above k4 h5
      dsimp only at h g5
      obtain ⟨cm, s6, h6, h⟩ := bind_inv h
      have k6 := AboveOk.store (W := fun l => WL asts l ∨ l = (Toml.pk E s1).start.line) (k5.mono fun l hl => .inl (g5 l hl)) hcs (.inr rfl) h6
      obtain ⟨rv, s7, h7, h, he7⟩ := bind_clean h he (by dirty)
      split at h
      · rename_i val
        have k7 := parseValue_above hE.1 _ _ _ _ _ _ k6 h7 he7
        rw [bind_nextId] at h
        obtain ⟨cm2, -, h⟩ := bind_lift_inv h
        obtain ⟨rfl, rfl⟩ := pure_inv h
        refine k7.mono fun l hl => ?_
        obtain ⟨f1, f2, f3⟩ := push_above (asts := asts) (a := ⟨cm2, key, (Toml.pk E s1).start, val⟩) (l := l)
        rcases hl with (hl | hl) | hl
        · exact f1 hl
        · exact f2 hl.symm
        · exact f3 hl
      · exact absurd he (bind_error_dirty h (fun _ => by dirty))
    · obtain ⟨_, s2, -, h⟩ := bind_inv h
      split at h
      · obtain ⟨_, s3, h3, h⟩ := bind_inv h
        obtain ⟨-, rfl⟩ := pure_inv h
        exact absurd he (expectedNewline_clean h3)
      · obtain ⟨f, s3, -, h⟩ := bind_inv h
        exact absurd he (bind_error_dirty h (fun _ => by dirty))
  · exact hk.elim
  · obtain ⟨_, s2, -, h⟩ := bind_inv h
    split at h
    · obtain ⟨_, s3, h3, h⟩ := bind_inv h
      obtain ⟨-, rfl⟩ := pure_inv h
      exact absurd he (expectedNewline_clean h3)
    · exact absurd he (bind_error_dirty h (fun _ => by dirty))

theorem rootLoop_above {vs : List Tok} (hn : (vs.map (·.2)).Nodup) (hE : EnvOk E) : ∀ (n : Nat) {s : PS} {r r' : RootSt}, KR E vs s r →
    AboveOk (WL r.asts) s.storage → rootLoop E n r s = .ok r' s' → s'.errors = [] → KR E vs s' r' ∧ AboveOk (WL r'.asts) s'.storage := by
  intro n
  induction n with
  | zero => intro s r r' _ _ h; cases h
  | succ n ih =>
    intro s r r' hK hA h he
    unfold rootLoop at h
    rw [bind_peek] at h
    generalize hty : (pk E s).ty = ty at h
    split at h
    · obtain ⟨r1, s1, h1, h, he1⟩ := bind_clean h he (fun _ => dirty_rootLoop _ _)
      exact ih (rootHeader_kind hE hty hK h1 he1) (rootHeader_above hA h1 he1) h he
    · obtain ⟨r1, s1, h1, h⟩ := bind_inv h
      exact ih (rootComment_kind hE.1 hty hK h1) (rootComment_above hA h1) h he
    · rw [bind_next] at h
      obtain ⟨e1, e2⟩ := hK.ko.nl_next hn hE.1 hty
      exact ih (r := { r with newlineRequired := false }) ⟨e1, hK.prev, hK.free, by simp, fun _ => e2, hK.ri⟩
        (by rw [adv_storage]; exact hA) h he
    · obtain ⟨rfl, rfl⟩ := pure_inv h
      exact ⟨hK, hA⟩
    · rename_i n1 n2 n3 n4
      obtain ⟨r1, s1, h1, h, he1⟩ := bind_clean h he (fun _ => dirty_rootLoop _ _)
      exact ih (rootAssignment_kind hn hE (by rw [hty]; exact n4) hK h1 he1) (rootAssignment_above hE hK.ko.cx hA h1 he1) h he

end Verif.Toml
