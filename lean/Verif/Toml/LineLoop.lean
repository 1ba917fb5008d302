import Verif.Toml.LineRoot
import Verif.Spec.Damage

/-! # The loop over a document, line by line -/

namespace Verif.Toml
open Verif Verif.Spec.Toml

variable {E : Env} {s s' s1 s2 : PS} {ℓ : Nat} {b : List Token} {es0 : List Error} {k : Nat} {toks : List Token}
  {n n1 n2 : Nat} {r r1 r2 : RootSt}

/-- The loop can go on. -/
structure LoopAt (E : Env) (toks : List Token) (es0 : List Error) (n : Nat) (r : RootSt) (s : PS) : Prop where
  at_ : ∃ pre, Good E toks es0 pre s ∧ RootInv E toks es0 pre s r
  fuel : s.rest.length < n
  ri : ∃ c, RI c r.asts

theorem LoopAt.cx (h : LoopAt E toks es0 n r s) : Cx E s := by
  obtain ⟨pre, hG, -⟩ := h.at_
  exact hG.cx

theorem LoopAt.eof (h : LoopAt E toks es0 n r s) : EnvEof E := by
  obtain ⟨pre, hG, -⟩ := h.at_
  exact ⟨hG.eofTy⟩

/-- The loop comes from the one state to the other, with further items `is`. -/
structure Later (E : Env) (toks : List Token) (es0 : List Error) (n : Nat) (r : RootSt) (s : PS)
    (is : List Item) (n2 : Nat) (r2 : RootSt) (s2 : PS) : Prop where
  loop : rootLoop E n r s = rootLoop E n2 r2 s2
  at_ : LoopAt E toks es0 n2 r2 s2
  rest : ∃ u, s.rest = u ++ s2.rest
  its : its r2.asts = its r.asts ++ is

theorem LoopAt.refl (h : LoopAt E toks es0 n r s) : Later E toks es0 n r s [] n r s :=
  ⟨rfl, h, ⟨[], rfl⟩, by simp⟩

theorem Later.trans {is1 is2 : List Item} (h1 : Later E toks es0 n r s is1 n1 r1 s1)
    (h2 : Later E toks es0 n1 r1 s1 is2 n2 r2 s2) : Later E toks es0 n r s (is1 ++ is2) n2 r2 s2 := by
  refine ⟨h1.loop.trans h2.loop, h2.at_, ?_, by rw [h2.its, h1.its, List.append_assoc]⟩
  obtain ⟨u, hu⟩ := h1.rest
  obtain ⟨u', hu'⟩ := h2.rest
  exact ⟨u ++ u', by rw [hu, hu', List.append_assoc]⟩

/-- One round. -/
theorem later_of_round {pre : Str} {m : M RootSt} {is : List Item} {c : Bool}
    (hn : s.rest.length < n + 1) (hl : rootLoop E (n + 1) r s = (m >>= fun r => rootLoop E n r) s)
    (hm : m s = .ok r1 s1) (hP : RootPost E toks es0 pre s r1 s1) (hR : RI c r1.asts)
    (hi : its r1.asts = its r.asts ++ is) :
    Later E toks es0 (n + 1) r s is n r1 s1 ∧ s1.rest.length < s.rest.length := by
  obtain ⟨u, p1, hu, hN, hI⟩ := hP
  have h1 := hN.len
  have : 0 < u.length := List.length_pos_iff.2 hu
  exact ⟨⟨by rw [hl, bind_ok hm], ⟨⟨p1, hN.good, hI⟩, by omega, c, hR⟩, ⟨u, hN.rest⟩, hi⟩, by omega⟩

/-! ## A line that can be read -/

theorem Val.mono {ts : List Tok} {v : TVal} (h : Val n ts v) : ∀ {m : Nat}, n ≤ m → Val m ts v := by
  induction h with
  | string => intro m _; exact .string
  | bare h1 h2 => intro m _; exact .bare h1 h2
  | spaced h1 h2 h3 h4 => intro m _; exact .spaced h1 h2 h3 h4
  | array h1 _ h3 ih =>
    intro m hm
    obtain ⟨m, rfl⟩ : ∃ m', m = m' + 1 := ⟨m - 1, by omega⟩
    exact .array h1 (fun e he => ih e he (by omega)) h3
  | table h1 _ h3 ih =>
    intro m hm
    obtain ⟨m, rfl⟩ : ∃ m', m = m' + 1 := ⟨m - 1, by omega⟩
    exact .table h1 (fun e he => ih e he (by omega)) h3

theorem Chain.lineStr : ∀ {ts : List Token} {pre : Str}, Chain E pre ts → LineStr (ts.map (vw E)) := by
  intro ts
  induction ts with
  | nil => intro pre _ t ht; cases ht
  | cons t ts ih =>
    intro pre h
    obtain ⟨g, y, -, h2, h3⟩ := h.cons_inv
    intro t' ht'
    rw [List.map_cons, List.mem_cons] at ht'
    rcases ht' with rfl | ht'
    · intro q lit txt hv hm
      have hx := h2.text
      unfold vw at hv
      split at hv
      · cases hv
      · unfold resolve at hv
        split at hx
        · rename_i id he
          obtain ⟨q', txt', o, hs, o', t', d, -, -, -, -, h7, -⟩ := hx
          simp only [he, hs, Option.map_some, Option.getD_some] at hv
          cases hv
          exact h7 hm
        all_goals
          rename_i he
          simp only [he] at hv
        · simp only [hx.1, Option.map_some, Option.getD_some] at hv
          cases hv
        · obtain ⟨w, hw, -⟩ := hx
          simp only [hw, Option.map_some, Option.getD_some] at hv
          cases hv
        all_goals first
          | (simp only [Option.getD_some] at hv; cases hv)
          | exact hx.elim
    · exact ih h3 t' ht'

/-- The end of a line: nothing more, or a line break. -/
def LineEnd (rest : List Tok) : Prop := rest = [] ∨ ∃ p r, rest = (.newline, p) :: r

theorem LineEnd.follow {rest : List Tok} (h : LineEnd rest) : Follow rest := by
  intro v p r he
  rcases h with rfl | ⟨q, r', rfl⟩
  · cases he
  · cases he; exact .inl rfl

theorem follow_comment {rest : List Tok} {x : Str} {p : Pos} : Follow ((.comment x, p) :: rest) := by
  intro v p r he
  cases he
  exact .inr (.inl ⟨_, rfl⟩)

theorem later_comment (h : LoopAt E toks es0 n r s) {x : Str} {p : Pos} {rest : List Tok}
    (hV : V E s = (.comment x, p) :: rest) :
    ∃ n2 r2 s2, Later E toks es0 n r s [] n2 r2 s2 ∧ V E s2 = rest ∧ s2.errors = s.errors := by
  have hC := h.cx
  obtain ⟨pre, hG, hI⟩ := h.at_
  obtain ⟨c, hR⟩ := h.ri
  obtain ⟨n, rfl⟩ : ∃ m, n = m + 1 := ⟨n - 1, by have := h.fuel; omega⟩
  obtain ⟨id, hty, -⟩ := (hC.view hV).1
  obtain ⟨r1, s1, h1, h2⟩ := (rootComment_post (P := False) hG hI hty).run
  obtain ⟨⟨x', p', w⟩, c1, c2, c3⟩ := rootComment_went h.eof hC hty hR h1
  have hv := w.view
  rw [hV] at hv
  simp only [List.cons_append, List.nil_append, List.cons.injEq] at hv
  refine ⟨n, r1, s1, (later_of_round h.fuel ?_ h1 h2 c1 (by rw [c2]; simp)).1, hv.2.symm,
    (quiet_rootComment _ _ _).out _ _ _ h1⟩
  conv => lhs; unfold rootLoop
  rw [bind_peek, hty]

theorem later_expr (h : LoopAt E toks es0 n r s) (hr : r.newlineRequired = false) {ts rest : List Tok} {i : Item}
    (hx : Expr true ts i) (hV : V E s = ts ++ rest) (hf : Follow rest) :
    ∃ n2 r2 s2, Later E toks es0 n r s [i] n2 r2 s2 ∧ V E s2 = rest ∧ s2.errors = s.errors := by
  have hC := h.cx
  have hE := h.eof
  obtain ⟨pre, hG, hI⟩ := h.at_
  obtain ⟨c, hR⟩ := h.ri
  obtain ⟨n, rfl⟩ : ∃ m, n = m + 1 := ⟨n - 1, by have := h.fuel; omega⟩
  have hL : LineStr (V E s) := hG.chain.lineStr
  cases hx with
  | @keyVal kt k p vt v hk hv =>
    obtain ⟨r1, s1, h1, h2⟩ := rootAssignment_complete (rest := rest) (v := v) (p := p) hE hG hI hR hr hk
      (Val.mono hv (by cases c <;> simp [depthLimit])) (by rw [hV]; simp) hf
    have h3 := rootAssignment_post (P := False) hG hI (by
      rcases key_not_sl hC hk (by rw [hV, List.append_assoc]) with ⟨id, h⟩ | ⟨id, h⟩ <;> rw [h] <;> rfl)
    rw [h1] at h3
    refine ⟨n, r1, s1, (later_of_round h.fuel ?_ h1 h3 h2.ri h2.its).1, h2.ate.left (r := rest) hV, h2.ate.errs⟩
    conv => lhs; unfold rootLoop
    rw [bind_peek]
    rcases key_not_sl hC hk (by rw [hV, List.append_assoc]) with ⟨id, h⟩ | ⟨id, h⟩ <;> rw [h]
  | @table p q kt k hk =>
    obtain ⟨r1, s1, h1, h2⟩ := rootHeader_table (rest := rest) (p := p) (q := q) hE hG hI hR hr hL hk (by rw [hV]; simp)
    have hty := ty_sl hC hV
    have h3 := rootHeader_post hG hI hty
    rw [h1] at h3
    refine ⟨n, r1, s1, (later_of_round h.fuel ?_ h1 h3 h2.ri h2.its).1, h2.ate.left (r := rest) hV, h2.ate.errs⟩
    conv => lhs; unfold rootLoop
    rw [bind_peek, hty]
  | @arrayTable p q kt k hk =>
    obtain ⟨r1, s1, h1, h2⟩ := rootHeader_array (rest := rest) (p := p) (q := q) hE hG hI hR hr hL hk (by rw [hV]; simp)
    have hty := ty_sl hC hV
    have h3 := rootHeader_post hG hI hty
    rw [h1] at h3
    refine ⟨n, r1, s1, (later_of_round h.fuel ?_ h1 h3 h2.ri h2.its).1, h2.ate.left (r := rest) hV, h2.ate.errs⟩
    conv => lhs; unfold rootLoop
    rw [bind_peek, hty]

theorem later_line (h : LoopAt E toks es0 n r s) (hr : r.newlineRequired = false) {ts rest : List Tok}
    {is : List Item} (hx : Line true ts is) (hV : V E s = ts ++ rest) (hf : LineEnd rest) :
    ∃ n2 r2 s2, Later E toks es0 n r s is n2 r2 s2 ∧ V E s2 = rest ∧ s2.errors = s.errors := by
  cases hx with
  | blank => exact ⟨n, r, s, h.refl, hV, rfl⟩
  | comment => exact later_comment h hV
  | expr hx => exact later_expr h hr hx hV hf.follow
  | exprComment hx =>
    obtain ⟨n1, r1, s1, h1, h2, h3⟩ := later_expr h hr hx (by rw [hV, List.append_assoc]; rfl) follow_comment
    obtain ⟨n2, r2, s2, g1, g2, g3⟩ := later_comment h1.at_ h2
    exact ⟨n2, r2, s2, by simpa using h1.trans g1, g2, by rw [g3, h3]⟩

/-! ## A line with damage -/

theorem LS.rebase {v : Bool} (h : LS E ℓ b es0 v k s) : LS E ℓ b s.errors v k s :=
  ⟨h.eofTy, h.fin, h.cx, h.line, [], by simp, by simp⟩

/-- On one line there is no bracket that another line closes. -/
theorem LS.noSplit {v : Bool} (h : LS E ℓ b es0 v k s) (hty : (Toml.pk E s).ty = .squareLeft)
    (hs : SplitAt E.ovf (Toml.pk E s) s.rest.tail) : False := by
  obtain ⟨m, t, n, h1, h2, h3, h4, -⟩ := hs
  obtain ⟨a, g1, -, g2, -⟩ := h.pk.2.2 (by rw [hty]; simp) (by rw [hty]; simp)
  refine h4 ?_
  rw [h.pkLine]
  rw [g1] at h1
  have key : ∀ (a m : List Token), (∀ t ∈ a, TokOn E ℓ t) → (∀ t' ∈ m, endsLine t'.ty = false) →
      a ++ b = m ++ t :: n → t.start.line = ℓ := by
    intro a
    induction a with
    | nil =>
      intro m _ h3 he
      rw [List.nil_append] at he
      rcases h.fin with ⟨rfl, -⟩ | ⟨t', b', rfl, e1, e2⟩
      · cases m <;> cases he
      · cases m with
        | nil => cases he; exact e2
        | cons t0 m => cases he; have := h3 t' (by simp); rw [e1] at this; cases this
    | cons x a ih =>
      intro m ha h3 he
      cases m with
      | nil => cases he; exact (ha _ (by simp)).start
      | cons t0 m =>
        simp only [List.cons_append, List.cons.injEq] at he
        exact ih m (fun t' ht' => ha t' (by simp [ht'])) (fun t' ht' => h3 t' (by simp [ht'])) he.2
  exact (key a m (fun t ht => g2 t (by simp [ht])) h3 (by simpa using h1)).symm

/-- One round on a damaged line. -/
theorem later_bad_round (h : LoopAt E toks es0 n r s) (hL : LS E ℓ b s.errors false k s) (hk : k ≤ 99)
    (h1 : (pk E s).ty ≠ .newline) (h2 : (pk E s).ty ≠ .eof) :
    ∃ n2 r2 s2 is, Later E toks es0 n r s is n2 r2 s2 ∧ LS E ℓ b s.errors false k s2 ∧
      s2.rest.length < s.rest.length := by
  have hC := h.cx
  have hE := h.eof
  obtain ⟨pre, hG, hI⟩ := h.at_
  obtain ⟨c, hR⟩ := h.ri
  obtain ⟨n, rfl⟩ : ∃ m, n = m + 1 := ⟨n - 1, by have := h.fuel; omega⟩
  have fin : ∀ {m : M RootSt} {r1 : RootSt} {s1 : PS},
      rootLoop E (n + 1) r s = (m >>= fun r => rootLoop E n r) s → m s = .ok r1 s1 →
      RootPost E toks es0 pre s r1 s1 → RoundOn E ℓ b s.errors k r r1 s1 →
      ∃ n2 r2 s2 is, Later E toks es0 (n + 1) r s is n2 r2 s2 ∧ LS E ℓ b s.errors false k s2 ∧
        s2.rest.length < s.rest.length := by
    rintro m r1 s1 e1 e2 e3 ⟨g1, ⟨is, g2⟩, c, g3⟩
    obtain ⟨f1, f2⟩ := later_of_round h.fuel e1 e2 e3 g3 g2
    exact ⟨_, _, _, _, f1, g1, f2⟩
  by_cases hsl : (pk E s).ty = .squareLeft
  · have hs := rootHeader_post' hG hI hsl
    obtain ⟨r1, s1, e1, e2⟩ := (hs.weaken (fun x => hL.noSplit hsl x)).run
    refine fin ?_ e1 e2 (rootHeader_line hL hR hsl e1)
    conv => lhs; unfold rootLoop
    rw [bind_peek, hsl]
  by_cases hcm : ∃ id, (pk E s).ty = .comment id
  · obtain ⟨id, hcm⟩ := hcm
    obtain ⟨r1, s1, e1, e2⟩ := (rootComment_post (P := False) hG hI hcm).run
    refine fin ?_ e1 e2 (rootComment_line hL hR hcm e1)
    conv => lhs; unfold rootLoop
    rw [bind_peek, hcm]
  · have he : endsLine (pk E s).ty = false := by
      cases ht : (pk E s).ty <;> first | rfl | skip
      · exact absurd ⟨_, ht⟩ hcm
      · exact absurd ht h1
      · exact absurd ht h2
    obtain ⟨r1, s1, e1, e2⟩ := (rootAssignment_post (P := False) hG hI he).run
    refine fin ?_ e1 e2 (rootAssignment_line hL hk hR e1)
    conv => lhs; unfold rootLoop
    rw [bind_peek]
    cases ht : (pk E s).ty <;> first | rfl | skip
    · exact absurd ⟨_, ht⟩ hcm
    · exact absurd ht hsl
    · exact absurd ht h1
    · exact absurd ht h2

/-- A damaged line. -/
theorem later_bad (hk : k ≤ 99) : ∀ (m : Nat) {n : Nat} {r : RootSt} {s : PS}, s.rest.length < m →
    LoopAt E toks es0 n r s → LS E ℓ b s.errors false k s →
    ∃ n2 r2 s2 is, Later E toks es0 n r s is n2 r2 s2 ∧ s2.rest = b ∧
      ∃ new, s2.errors = s.errors ++ new ∧ ∀ e ∈ new, e.span.start.line = ℓ := by
  intro m
  induction m with
  | zero => intro n r s hm; omega
  | succ m ih =>
    intro n r s hm h hL
    obtain ⟨a, h1, h2, h3, h4⟩ := hL.line
    cases a with
    | nil => exact ⟨n, r, s, [], h.refl, h1, [], by simp, by simp⟩
    | cons t a =>
      have hp : pk E s = t := by unfold pk; rw [h1]; rfl
      have ht := h2 t (by simp)
      obtain ⟨n1, r1, s1, is1, e1, e2, e3⟩ := later_bad_round h hL hk (by rw [hp]; exact ht.nl) (by rw [hp]; exact ht.eof)
      obtain ⟨n2, r2, s2, is2, f1, f2, new2, f3, f4⟩ := ih (by omega) e1.at_ e2.rebase
      obtain ⟨new1, g1, g2⟩ := e2.errs
      refine ⟨n2, r2, s2, _, e1.trans f1, f2, new1 ++ new2, by rw [f3, g1, List.append_assoc], ?_⟩
      intro e he
      rcases List.mem_append.1 he with he | he
      · exact g2 e he
      · exact f4 e he

/-! ## Documents -/

theorem later_newline (h : LoopAt E toks es0 n r s) {t : Token} {ts : List Token} (hr : s.rest = t :: ts)
    (ht : t.ty = .newline) : ∃ n2 s2, Later E toks es0 n r s [] n2 { r with newlineRequired := false } s2 ∧
      s2.rest = ts ∧ s2.errors = s.errors := by
  obtain ⟨pre, hG, hI⟩ := h.at_
  obtain ⟨c, hR⟩ := h.ri
  obtain ⟨n, rfl⟩ : ∃ m, n = m + 1 := ⟨n - 1, by have := h.fuel; omega⟩
  have hp : pk E s = t := by unfold pk; rw [hr]; rfl
  have hty : (pk E s).ty = .newline := by rw [hp]; exact ht
  obtain ⟨u, p1, h1, h2, h3⟩ := rootNewline_post hG hI hty
  have hl := h2.len
  have : 0 < u.length := List.length_pos_iff.2 h1
  have hf := h.fuel
  refine ⟨n, s.adv, ⟨?_, ⟨⟨p1, h2.good, h3⟩, by omega, c, hR⟩, ⟨u, h2.rest⟩, by simp⟩, ?_, adv_errors⟩
  · conv => lhs; unfold rootLoop
    rw [bind_peek, hty]
    dsimp only
    rw [bind_next]
  · unfold PS.adv; rw [hr]

/-- The tokens of a document whose lines are right or damaged: the items of the right ones, the lines of the
damaged ones. -/
inductive Parts (E : Env) : List Token → List (List Item ⊕ Nat) → Prop
  | goodEnd {ts is} : Line true (ts.map (vw E)) is → Parts E ts [.inl is]
  | badEnd {ts ℓ} : (∀ t ∈ ts, TokOn E ℓ t) → Arr false ts → curls ts ≤ 99 → E.eof.start.line = ℓ →
      Parts E ts [.inr ℓ]
  | good {a t ts is ps} : Line true (a.map (vw E)) is → t.ty = .newline → Parts E ts ps →
      Parts E (a ++ t :: ts) (.inl is :: ps)
  | bad {a t ts ℓ ps} : (∀ t ∈ a, TokOn E ℓ t) → Arr false a → curls a ≤ 99 → t.ty = .newline →
      t.start.line = ℓ → Parts E ts ps → Parts E (a ++ t :: ts) (.inr ℓ :: ps)

theorem rest_of_view {u b : List Token} {s2 : PS} {a : List Token} (h : a ++ b = u ++ s2.rest)
    (hV : V E s2 = b.map (vw E)) : s2.rest = b := by
  have hl : s2.rest.length = b.length := by
    have := congrArg List.length hV
    simpa [V] using this
  exact (List.append_inj_right' h hl.symm).symm

theorem loop_end (h : LoopAt E toks es0 n r s) (hr : s.rest = []) : rootLoop E n r s = .ok r s := by
  obtain ⟨n, rfl⟩ : ∃ m, n = m + 1 := ⟨n - 1, by have := h.fuel; omega⟩
  have : (pk E s).ty = .eof := by unfold pk; rw [hr]; exact h.eof.eof
  unfold rootLoop
  rw [bind_peek, this]
  rfl

theorem loop_parts {ts : List Token} {ps : List (List Item ⊕ Nat)} (hp : Parts E ts ps) :
    ∀ {n : Nat} {r : RootSt} {s : PS}, LoopAt E toks es0 n r s → r.newlineRequired = false → s.rest = ts →
    ∃ r' s' is new, rootLoop E n r s = .ok r' s' ∧ its r'.asts = its r.asts ++ is ∧ Filled ps is ∧
      s'.errors = s.errors ++ new ∧ ∀ e ∈ new, .inr e.span.start.line ∈ ps := by
  induction hp with
  | @goodEnd ts is hx =>
    intro n r s h hr hts
    obtain ⟨n2, r2, s2, h1, h2, h3⟩ := later_line (rest := []) h hr hx (by simp [V, hts]) (.inl rfl)
    have hs2 : s2.rest = [] := by simpa [V] using h2
    refine ⟨r2, s2, is, [], by rw [h1.loop, loop_end h1.at_ hs2], h1.its, ?_, by simp [h3], by simp⟩
    simpa using Filled.right (is := is) .nil
  | @badEnd ts ℓ g1 g2 g3 g4 =>
    intro n r s h hr hts
    obtain ⟨n2, r2, s2, is, h1, h2, new, h3, h4⟩ := later_bad (ℓ := ℓ) (b := []) (k := 99) (by omega) _ (Nat.lt_succ_self _) h
      ⟨h.eof, .inl ⟨rfl, g4⟩, h.cx, ⟨ts, by simp [hts], g1, g2, g3⟩, [], by simp, by simp⟩
    refine ⟨r2, s2, is, new, by rw [h1.loop, loop_end h1.at_ h2], h1.its, ?_, h3, ?_⟩
    · simpa using Filled.damaged (ℓ := ℓ) (is := is) .nil
    · intro e he; rw [h4 e he]; simp
  | @good a t ts is ps hx ht _ ih =>
    intro n r s h hr hts
    obtain ⟨n2, r2, s2, h1, h2, h3⟩ := later_line (rest := (t :: ts).map (vw E)) h hr hx (by simp [V, hts])
      (.inr ⟨_, _, by rw [List.map_cons, vw_nl ht]⟩)
    obtain ⟨u, hu⟩ := h1.rest
    obtain ⟨n3, s3, k1, k2, k3⟩ := later_newline h1.at_ (rest_of_view (hts.symm.trans hu) h2) ht
    have k4 := h1.trans k1
    obtain ⟨r', s', is', new, f1, f2, f3, f4, f5⟩ := ih k4.at_ rfl k2
    refine ⟨r', s', is ++ is', new, by rw [k4.loop, f1], ?_, .right f3, by rw [f4, k3, h3], ?_⟩
    · rw [f2, k4.its]; simp
    · intro e he; simpa using f5 e he
  | @bad a t ts ℓ ps g1 g2 g3 ht hl _ ih =>
    intro n r s h hr hts
    obtain ⟨n2, r2, s2, is, h1, h2, new1, h3, h4⟩ := later_bad (ℓ := ℓ) (b := t :: ts) (k := 99) (by omega) _ (Nat.lt_succ_self _) h
      ⟨h.eof, .inr ⟨_, _, rfl, ht, hl⟩, h.cx, ⟨a, hts, g1, g2, g3⟩, [], by simp, by simp⟩
    obtain ⟨n3, s3, k1, k2, k3⟩ := later_newline h1.at_ h2 ht
    have k4 := h1.trans k1
    obtain ⟨r', s', is', new, f1, f2, f3, f4, f5⟩ := ih k4.at_ rfl k2
    refine ⟨r', s', is ++ is', new1 ++ new, by rw [k4.loop, f1], ?_, .damaged f3, by rw [f4, k3, h3]; simp, ?_⟩
    · rw [f2, k4.its]; simp
    · intro e he
      rcases List.mem_append.1 he with he | he
      · rw [h4 e he]; simp
      · simpa using .inr (f5 e he)

end Verif.Toml
