import Verif.Toml.AssocKind

/-! # Comments: which are at the end of a line; documents -/

namespace Verif.Toml
open Verif Verif.Spec.Toml

variable {E : Env} {s s' s1 s2 : PS} {vs : List Tok}

/-- The state between the items of a document. -/
structure KR (E : Env) (vs : List Tok) (s : PS) (r : RootSt) : Prop where
  ko : KO E vs s
  prev : ∀ c ∈ r.prevComments, ¬ NotFirst vs c.span.start
  free : ∀ c ∈ astComments r.asts, ¬ NotFirst vs c.span.start
  nl : r.newlineRequired = true → ∀ x p rest, V E s = (.comment x, p) :: rest → NotFirst vs p
  nn : r.newlineRequired = false → NC E vs s
  ri : ∃ b, RI b r.asts

theorem KindOk.add {st : List AssocComment} (h : KindOk vs st) {c : AssocComment}
    (hc : c.pos = .lineEnd ↔ NotFirst vs c.comment.span.start) : KindOk vs (st ++ [c]) := by
  intro x hx
  simp only [List.map_append, List.map_cons, List.map_nil, List.mem_append, List.mem_singleton] at hx
  rcases hx with hx | rfl
  · exact h x hx
  · simpa [lk] using hc

theorem addComments_kind {p : AssocPos} (hp : p ≠ .lineEnd) : ∀ (cs : List Comment) {s : PS} {r a : CommentRange},
    (∀ c ∈ cs, ¬ NotFirst vs c.span.start) → KindOk vs s.storage → addComments r p cs s = .ok a s' → KindOk vs s'.storage := by
  intro cs
  induction cs with
  | nil =>
    intro s r a _ hk h
    obtain ⟨-, rfl⟩ := pure_inv h
    exact hk
  | cons c cs ih =>
    intro s r a hc hk h
    unfold addComments at h
    obtain ⟨r1, s1, h1, h2⟩ := bind_inv h
    obtain ⟨rfl, -⟩ := addComment_storage h1
    refine ih (fun d hd => hc d (by simp [hd])) (hk.add ?_) h2
    simp [hp, hc c (by simp)]

theorem storeComments_kind {p : AssocPos} (hp : p ≠ .lineEnd) {cs : List Comment} {level : Nat} {a : CommentRange}
    (hc : ∀ c ∈ cs, ¬ NotFirst vs c.span.start) (hk : KindOk vs s.storage) (h : storeComments cs p level s = .ok a s') :
    KindOk vs s'.storage := by
  unfold storeComments at h
  rw [bind_nextId] at h
  exact addComments_kind hp cs hc hk h

theorem looseComments_kind {r : RootSt} {cs : List Comment} {o : List Ast × Nat}
    (hc : ∀ c ∈ cs, ¬ NotFirst vs c.span.start) (hk : KindOk vs s.storage) (h : looseComments r cs s = .ok o s') :
    KindOk vs s'.storage := by
  unfold looseComments at h
  generalize r.asts.getLast? = la at h
  split at h
  · obtain ⟨c, s1, h1, h⟩ := bind_inv h
    obtain ⟨-, rfl⟩ := pure_inv h
    exact addComments_kind (by simp) cs hc hk h1
  · obtain ⟨c, s1, h1, h⟩ := bind_inv h
    obtain ⟨-, rfl⟩ := pure_inv h
    exact addComments_kind (by simp) cs hc hk h1
  · obtain ⟨-, rfl⟩ := pure_inv h
    exact hk

theorem looseComments_free {r : RootSt} {cs : List Comment} {o : List Ast × Nat} (h : looseComments r cs s = .ok o s') :
    ∀ c ∈ astComments o.1, c ∈ astComments r.asts ∨ c ∈ cs := by
  obtain ⟨-, -, h⟩ := looseComments_arr h
  intro c hc
  rcases h with ⟨-, h⟩ | ⟨-, h⟩
  · rw [h] at hc; exact .inl hc
  · rw [h] at hc; exact List.mem_append.1 hc

theorem finishHeader_kind {ovf : Bool} {r r' : RootSt} {l : Pos} {la : Option Pos} {k : Option Key} {q : Option Pos × Option Pos}
    (hp : ∀ c ∈ r.prevComments, ¬ NotFirst vs c.span.start) (hk : KindOk vs s.storage)
    (h : finishHeader ovf r l la k q s = .ok r' s') :
    KindOk vs s'.storage ∧ r'.prevComments = [] ∧ ∀ c ∈ astComments r'.asts, c ∈ astComments r.asts ∨ c ∈ r.prevComments := by
  unfold finishHeader at h
  obtain ⟨pos, s1, h1, h'⟩ := bind_inv h
  clear h
  obtain ⟨-, rfl⟩ := lift_inv h1
  dsimp only at h'
  have h := h'
  obtain ⟨cm, s2, h2, h⟩ := bind_inv h
  have k2 := storeComments_kind (by simp) (fun c hc => hp c (List.mem_of_mem_drop hc)) hk h2
  have fin : ∀ x : Ast, (∀ c, x ≠ .comment c) →
      ∀ c ∈ astComments (r.asts ++ (r.prevComments.take pos).map Ast.comment ++ [x]), c ∈ astComments r.asts ∨ c ∈ r.prevComments := by
    intro x hc c hm
    have : astComments [x] = [] := by
      cases x with
      | comment c => exact absurd rfl (hc c)
      | _ => rfl
    simp only [astComments_append', this, List.append_nil, astComments_map, List.mem_append] at hm
    rcases hm with hm | hm
    · exact .inl hm
    · exact .inr (List.mem_of_mem_take hm)
  split at h
  · obtain ⟨hd, -, h⟩ := bind_lift_inv h
    obtain ⟨rfl, rfl⟩ := pure_inv h
    exact ⟨k2, rfl, fin _ (by simp)⟩
  · obtain ⟨hd, -, h⟩ := bind_lift_inv h
    obtain ⟨rfl, rfl⟩ := pure_inv h
    exact ⟨k2, rfl, fin _ (by simp)⟩

theorem KR.of_expr {r r' : RootSt} {b : Bool} (h : KR E vs s r) (hx : ExprRead E b r s r' s') (hk : KindOk vs s'.storage)
    (hp : r'.prevComments = []) (hf : ∀ c ∈ astComments r'.asts, c ∈ astComments r.asts ∨ c ∈ r.prevComments) : KR E vs s' r' := by
  obtain ⟨ts, i, w, e, -, hR⟩ := hx.read
  obtain ⟨a, ha⟩ := h.ko.at_
  refine ⟨⟨w.cx, ⟨a ++ ts, by rw [ha, w.view, List.append_assoc]⟩, hk⟩, by simp [hp], ?_, ?_, ?_, _, hR⟩
  · intro c hc
    rcases hf c hc with hc | hc
    · exact h.free c hc
    · exact h.prev c hc
  · intro _ x p rest hv
    obtain ⟨b, t, hb, ht⟩ := h.ko.busy' w (expr_busy e)
    exact ⟨b, t, x, rest, by rw [hb, hv], ht⟩
  · intro hq
    rw [hx.after] at hq
    cases hq

theorem rootHeader_kind (hE : EnvOk E) (hty : (pk E s).ty = .squareLeft) {r r' : RootSt} (hK : KR E vs s r)
    (h : rootHeader E (pk E s) r s = .ok r' s') (he : s'.errors = []) : KR E vs s' r' := by
  obtain ⟨b, hR⟩ := hK.ri
  refine hK.of_expr (rootHeader_sound hE hK.ko.cx hty hR h he) ?_ ?_ ?_
  all_goals
    unfold rootHeader at h
    rw [bind_mark] at h
    obtain ⟨t, s1, h1, h⟩ := bind_inv h
    have e1 := calm_next.out _ _ _ h1
    dsimp only at h
    obtain ⟨la, s2, h2, h⟩ := bind_inv h
    have e2 := (calm_openArray _).out _ _ _ h2
    obtain ⟨⟨key, skip⟩, s3, h3, h⟩ := bind_inv h
    have e3 := calm_headerKey.out _ _ _ h3
    dsimp only at h
    obtain ⟨q, s4, h4, h⟩ := bind_inv h
    have e4 := (calm_closeHeader _ _ _).out _ _ _ h4
    obtain ⟨go, s5, h5, h6, he5⟩ := bind_clean h he (by
      dirty
      all_goals exact (quiet_finishHeader _ _ _ _ _ _).dirty)
    obtain ⟨-, rfl, rfl⟩ := checkNewline_sound h5 he5
    rw [if_pos rfl] at h6
    have hk : KindOk vs s5.storage := by rw [e4, e3, e2, e1]; exact hK.ko.kind
    obtain ⟨f1, f2, f3⟩ := finishHeader_kind hK.prev hk h6
    assumption

theorem rootComment_kind (hE : EnvEof E) {id : Nat} (hty : (pk E s).ty = .comment id) {r r' : RootSt} (hK : KR E vs s r)
    (h : rootComment E (pk E s) id r s = .ok r' s') : KR E vs s' r' := by
  obtain ⟨b, hR⟩ := hK.ri
  obtain ⟨⟨x, p, w⟩, c1, c2, c3⟩ := rootComment_went hE hK.ko.cx hty hR h
  have hnl : V E s' = [] ∨ ∃ q r', V E s' = (.newline, q) :: r' := hK.ko.cx.comment w.view
  have hno : ∀ x p rest, V E s' ≠ (.comment x, p) :: rest := by
    intro x p rest hv
    rcases hnl with e | ⟨q, t, e⟩
    · rw [e] at hv; cases hv
    · rw [e] at hv; cases hv
  obtain ⟨a, ha⟩ := hK.ko.at_
  have hat : ∃ a, vs = a ++ V E s' := ⟨a ++ [(.comment x, p)], by rw [ha, w.view]; simp⟩
  unfold rootComment at h
  rw [bind_next] at h
  unfold getComment at h
  obtain ⟨d, hd, h⟩ := bind_lift_inv h
  obtain ⟨l, hl, rfl⟩ := Option.map_eq_some_iff.1 hd
  obtain ⟨f1, f2, f3⟩ := hK.ko.com_next hE hty hl
  split at h
  · rename_i hreq
    obtain ⟨cid, s2, h5, h⟩ := bind_inv h
    cases h5
    generalize hla : r.asts.getLast? = la at h
    cases la with
    | none => cases h
    | some a =>
      dsimp only at h
      obtain ⟨a', ha, h⟩ := bind_lift_inv h
      obtain ⟨rfl, rfl⟩ := pure_inv h
      have hs := last_split hla
      refine ⟨⟨w.cx, hat, ?_⟩, hK.prev, ?_, fun _ x p rest hv => absurd hv (hno x p rest), fun _ x p rest hv => absurd hv (hno x p rest), b, c1⟩
      · refine KindOk.add (by rw [adv_storage]; exact hK.ko.kind) ?_
        simp only [true_iff]
        exact hK.nl hreq _ _ _ f1
      · intro c hc
        refine hK.free c ?_
        rw [hs, astComments_append']
        rw [astComments_append', appendComment_free ha] at hc
        exact hc
  · rename_i hreq
    have hreq : r.newlineRequired = false := by simpa using hreq
    obtain ⟨rfl, rfl⟩ := pure_inv h
    refine ⟨f2, ?_, hK.free, fun _ x p rest hv => absurd hv (hno x p rest), fun _ x p rest hv => absurd hv (hno x p rest), b, c1⟩
    intro c hc
    rcases List.mem_append.1 hc with hc | hc
    · exact hK.prev c hc
    · rw [List.mem_singleton.1 hc]
      exact hK.nn hreq _ _ _ f1

theorem push_free {asts : List Ast} {a : ToplevelAssignment} : astComments (pushAssignment asts a) = astComments asts :=
  push_arr.2

theorem rootAssignment_kind (hn : (vs.map (·.2)).Nodup) (hE : EnvOk E) {r r' : RootSt} (hnn : (pk E s).ty ≠ .eof) (hK : KR E vs s r)
    (h : rootAssignment E (pk E s) r s = .ok r' s') (he : s'.errors = []) : KR E vs s' r' := by
  obtain ⟨b, hR⟩ := hK.ri
  have hX := rootAssignment_sound hE hK.ko.cx hR hnn h he
  suffices hs : KindOk vs s'.storage ∧ r'.prevComments = [] ∧
      ∀ c ∈ astComments r'.asts, c ∈ astComments r.asts ∨ c ∈ r.prevComments from hK.of_expr hX hs.1 hs.2.1 hs.2.2
  unfold rootAssignment at h
  rw [bind_mark] at h
  obtain ⟨kr, s1, h1, h, he1⟩ := bind_clean h he (by
    dirty
    all_goals first
      | exact dirty_rootEq _ _ _ _ | exact dirty_expectedNewline _ _)
  have hk := parseKey_sound hE hK.ko.cx h1 he1
  have e1 := calm_parseKey.out _ _ _ h1
  clear h1
  split at h
  · rename_i key
    obtain ⟨kt, ns, w1, -, -⟩ := hk
    have k1 := hK.ko.went w1 e1
    unfold rootEq at h
    rw [bind_peek] at h
    split at h
    · rename_i heq
      rw [bind_next] at h
      have k2 := k1.went (k1.cx.step hE (by rw [heq]; simp)) adv_storage
      obtain ⟨go, s3, h3, h, he3⟩ := bind_clean h he (by
        dirty
        all_goals exact dirty_rootValue _ _ _)
      obtain ⟨-, rfl, rfl⟩ := checkNewline_sound h3 he3
      rw [if_pos rfl] at h
      unfold rootValue at h
      obtain ⟨pos, s4, h4, h⟩ := bind_inv h
      have k4 := k2.rest ((still_findAssoc _ _).out _ _ _ h4) (by obtain ⟨-, rfl⟩ := lift_inv h4; rfl)
      obtain ⟨⟨asts, level⟩, s5, h5, h⟩ := bind_inv h
      have hpt : ∀ c ∈ r.prevComments.take pos, ¬ NotFirst vs c.span.start := fun c hc => hK.prev c (List.mem_of_mem_take hc)
      have hpd : ∀ c ∈ r.prevComments.drop pos, ¬ NotFirst vs c.span.start := fun c hc => hK.prev c (List.mem_of_mem_drop hc)
      have kk5 := looseComments_kind hpt k4.kind h5
      have w5 := k4.cx.still (still_loose _ _) h5
      have fr := looseComments_free h5
      dsimp only at h fr
      obtain ⟨cm, s6, h6, h⟩ := bind_inv h
      have kk6 := storeComments_kind (by simp) hpd kk5 h6
      have w6 := w5.trans (w5.cx.still (still_storeComments _ _ _) h6)
      have k6 : KO E vs s6 := by
        obtain ⟨a, ha⟩ := k4.at_
        exact ⟨w6.cx, ⟨a, by rw [ha, w6.view]; simp⟩, kk6⟩
      obtain ⟨rv, s7, h7, h, he7⟩ := bind_clean h he (by dirty)
      split at h
      · rename_i val
        have k7 := parseValue_kind hn hE _ _ _ _ _ k6 h7 he7
        rw [bind_nextId] at h
        obtain ⟨cm2, -, h⟩ := bind_lift_inv h
        obtain ⟨rfl, rfl⟩ := pure_inv h
        refine ⟨k7.kind, rfl, ?_⟩
        intro c hc
        rw [push_free] at hc
        rcases fr c hc with hc | hc
        · exact .inl hc
        · exact .inr (List.mem_of_mem_take hc)
      · exact absurd he (bind_error_dirty h (fun _ => by dirty))
    · obtain ⟨_, s2, -, h⟩ := bind_inv h
      split at h
      · obtain ⟨_, s3, h3, h⟩ := bind_inv h
        obtain ⟨-, rfl⟩ := pure_inv h
        exact absurd he (expectedNewline_clean h3)
      · obtain ⟨f, s3, -, h⟩ := bind_inv h
        exact absurd he (bind_error_dirty h (fun _ => by dirty))
  · exact hk.elim
  · obtain ⟨_, s2, -, h⟩ := bind_inv h
    split at h
    · obtain ⟨_, s3, h3, h⟩ := bind_inv h
      obtain ⟨-, rfl⟩ := pure_inv h
      exact absurd he (expectedNewline_clean h3)
    · exact absurd he (bind_error_dirty h (fun _ => by dirty))

theorem rootLoop_kind (hn : (vs.map (·.2)).Nodup) (hE : EnvOk E) : ∀ (n : Nat) {s : PS} {r r' : RootSt}, KR E vs s r →
    rootLoop E n r s = .ok r' s' → s'.errors = [] → KR E vs s' r' := by
  intro n
  induction n with
  | zero => intro s r r' _ h; cases h
  | succ n ih =>
    intro s r r' hK h he
    unfold rootLoop at h
    rw [bind_peek] at h
    generalize hty : (pk E s).ty = ty at h
    split at h
    · obtain ⟨r1, s1, h1, h, he1⟩ := bind_clean h he (fun _ => dirty_rootLoop _ _)
      exact ih (rootHeader_kind hE hty hK h1 he1) h he
    · obtain ⟨r1, s1, h1, h⟩ := bind_inv h
      exact ih (rootComment_kind hE hty hK h1) h he
    · rw [bind_next] at h
      obtain ⟨e1, e2⟩ := hK.ko.nl_next hn hE hty
      exact ih (r := { r with newlineRequired := false }) ⟨e1, hK.prev, hK.free, by simp, fun _ => e2, hK.ri⟩ h he
    · obtain ⟨rfl, rfl⟩ := pure_inv h
      exact hK
    · rename_i n1 n2 n3 n4
      obtain ⟨r1, s1, h1, h, he1⟩ := bind_clean h he (fun _ => dirty_rootLoop _ _)
      exact ih (rootAssignment_kind hn hE (by rw [hty]; exact n4) hK h1 he1) h he

end Verif.Toml
