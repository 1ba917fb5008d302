import Verif.Spec.Grammar

/-! # Brackets of documents that follow the grammar -/

namespace Verif.Toml
open Verif Verif.Spec.Toml

/-- The tokens are balanced, and never have more than `n` open brackets. -/
def Bal (n : Int) (ts : List Tok) : Prop :=
  bracketDepth ts = 0 ∧ ∀ a b, ts = a ++ b → bracketDepth a ≤ n

theorem bd_append (a b : List Tok) : bracketDepth (a ++ b) = bracketDepth a + bracketDepth b := by
  simp [bracketDepth]

theorem bd_nil : bracketDepth [] = 0 := rfl

theorem Bal.nil {n : Int} (hn : 0 ≤ n) : Bal n [] := by
  refine ⟨rfl, fun a b h => ?_⟩
  rw [(List.append_eq_nil_iff.1 h.symm).1]
  exact hn

theorem Bal.mono {n m : Int} {ts : List Tok} (h : Bal n ts) (hm : n ≤ m) : Bal m ts :=
  ⟨h.1, fun a b e => Int.le_trans (h.2 a b e) hm⟩

theorem Bal.append {n : Int} {a b : List Tok} (ha : Bal n a) (hb : Bal n b) : Bal n (a ++ b) := by
  refine ⟨by rw [bd_append, ha.1, hb.1]; rfl, fun x y h => ?_⟩
  rcases List.append_eq_append_iff.1 h with ⟨z, rfl, h2⟩ | ⟨z, rfl, h2⟩
  · rw [bd_append, ha.1, Int.zero_add]; exact hb.2 _ _ h2
  · exact ha.2 _ _ rfl

/-- A token other than a bracket. -/
def isFlat (t : Tok) : Prop := bracketDepth [t] = 0

theorem Bal.flat {n : Int} (hn : 0 ≤ n) {ts : List Tok} (h : ∀ t ∈ ts, isFlat t) : Bal n ts := by
  induction ts with
  | nil => exact .nil hn
  | cons t ts ih =>
    have h1 : Bal n [t] := by
      refine ⟨h t (by simp), fun a b e => ?_⟩
      cases a with
      | nil => exact hn
      | cons x a =>
        simp only [List.cons_append, List.cons.injEq] at e
        obtain ⟨rfl, e⟩ := e
        rw [(List.append_eq_nil_iff.1 e.symm).1, h t (by simp)]
        exact hn
    exact h1.append (ih fun t ht => h t (by simp [ht]))

/-- Brackets around balanced tokens. -/
theorem Bal.wrap {n : Int} {ts : List Tok} {o c : Tok} (h : Bal n ts) (hn : 0 ≤ n) (ho : bracketDepth [o] = 1)
    (hc : bracketDepth [c] = -1) : Bal (n + 1) (o :: (ts ++ [c])) := by
  have e1 : ∀ a, bracketDepth (o :: a) = 1 + bracketDepth a := by
    intro a
    have := bd_append [o] a
    rw [ho] at this
    exact this
  refine ⟨by rw [e1, bd_append, h.1, hc]; rfl, fun a b he => ?_⟩
  cases a with
  | nil => rw [bd_nil]; omega
  | cons x a =>
    simp only [List.cons_append, List.cons.injEq] at he
    obtain ⟨rfl, he⟩ := he
    rw [e1]
    rcases List.append_eq_append_iff.1 he with ⟨z, rfl, h2⟩ | ⟨z, rfl, h2⟩
    · rw [bd_append, h.1]
      cases z with
      | nil => rw [bd_nil]; omega
      | cons y z =>
        simp only [List.cons_append, List.cons.injEq] at h2
        obtain ⟨rfl, h2⟩ := h2
        rw [(List.append_eq_nil_iff.1 h2.symm).1, hc]; omega
    · have := h.2 _ _ rfl
      omega

theorem gap_flat {g : List Tok} (h : Gap g) : ∀ t ∈ g, isFlat t := by
  intro t ht
  obtain ⟨v, p⟩ := t
  rcases h _ ht with h | ⟨x, h⟩ <;> (dsimp only at h; subst h; rfl)

theorem key_flat {ts : List Tok} {ns : List Str} (h : KeyToks ts ns) : ∀ t ∈ ts, isFlat t := by
  induction h with
  | one hp =>
    intro t ht
    rw [List.mem_singleton.1 ht]
    cases hp <;> rfl
  | dot hp _ ih =>
    intro t ht
    simp only [List.mem_cons] at ht
    rcases ht with rfl | rfl | ht
    · cases hp <;> rfl
    · rfl
    · exact ih t ht

theorem pieces_flat {p : Pos} {ts : List Tok} {x : Str} (h : Pieces p ts x) : ∀ t ∈ ts, isFlat t := by
  induction h with
  | nil => intro t ht; cases ht
  | dot _ ih | word _ ih =>
    intro t ht
    rcases List.mem_cons.1 ht with rfl | ht
    · rfl
    · exact ih t ht

theorem bare_flat {p : Pos} {ts : List Tok} {x : Str} (h : Bare p ts x) : ∀ t ∈ ts, isFlat t := by
  obtain ⟨w, ts', y, rfl, -, h⟩ := h
  intro t ht
  rcases List.mem_cons.1 ht with rfl | ht
  · rfl
  · exact pieces_flat h t ht

theorem arrayBody_bal {n : Int} (hn : 0 ≤ n) {es : List Elem} {ts : List Tok} (h : ArrayBody es ts)
    (hg : ∀ e ∈ es, Gap e.before ∧ Gap e.after) (hv : ∀ e ∈ es, Bal n e.toks) :
    ∃ m p, ts = m ++ [(.punct ']', p)] ∧ Bal n m := by
  induction h with
  | close h => exact ⟨_, _, rfl, .flat hn (gap_flat h)⟩
  | @last e p =>
    obtain ⟨h1, h2⟩ := hg e (by simp)
    exact ⟨_, _, rfl, ((Bal.flat hn (gap_flat h1)).append (hv e (by simp))).append (.flat hn (gap_flat h2))⟩
  | @more e es ts p _ ih =>
    obtain ⟨h1, h2⟩ := hg e (by simp)
    obtain ⟨m, q, rfl, hb⟩ := ih (fun e he => hg e (by simp [he])) (fun e he => hv e (by simp [he]))
    refine ⟨e.before ++ e.toks ++ e.after ++ ((.punct ',', p) :: m), q, by simp, ?_⟩
    refine (((Bal.flat hn (gap_flat h1)).append (hv e (by simp))).append (.flat hn (gap_flat h2))).append ?_
    have : Bal n [(.punct ',', p)] := .flat hn (by intro t ht; rw [List.mem_singleton.1 ht]; rfl)
    exact this.append hb

theorem entry_bal {n : Int} (hn : 0 ≤ n) {e : Entry} (hk : KeyToks e.key e.names) (hv : Bal n e.toks) :
    Bal n e.all := by
  have : Bal n [(.punct '=', e.eq)] := .flat hn (by intro t ht; rw [List.mem_singleton.1 ht]; rfl)
  exact (Bal.flat hn (key_flat hk)).append (this.append hv)

theorem tableBody_bal {n : Int} (hn : 0 ≤ n) {es : List Entry} {ts : List Tok} (h : TableBody es ts)
    (hk : ∀ e ∈ es, KeyToks e.key e.names) (hv : ∀ e ∈ es, Bal n e.toks) :
    ∃ m p, ts = m ++ [(.punct '}', p)] ∧ Bal n m := by
  induction h with
  | close => exact ⟨[], _, rfl, .nil hn⟩
  | @last e p => exact ⟨_, _, rfl, entry_bal hn (hk e (by simp)) (hv e (by simp))⟩
  | @more e e' es ts p _ ih =>
    obtain ⟨m, q, rfl, hb⟩ := ih (fun e he => hk e (by simp [he])) (fun e he => hv e (by simp [he]))
    refine ⟨e.all ++ ((.punct ',', p) :: m), q, by simp, ?_⟩
    have : Bal n [(.punct ',', p)] := .flat hn (by intro t ht; rw [List.mem_singleton.1 ht]; rfl)
    exact (entry_bal hn (hk e (by simp)) (hv e (by simp))).append (this.append hb)

theorem val_bal {n : Nat} {ts : List Tok} {v : TVal} (h : Val n ts v) : Bal n ts := by
  induction h with
  | @string n q lit txt p =>
    exact .flat (by omega) (by intro t ht; rw [List.mem_singleton.1 ht]; rfl)
  | bare hb => exact .flat (by omega) (bare_flat hb)
  | spaced hb hb' => exact (Bal.flat (by omega) (bare_flat hb)).append (.flat (by omega) (bare_flat hb'))
  | @array n p es ts hg _ hb ih =>
    obtain ⟨m, q, rfl, h⟩ := arrayBody_bal (n := n) (by omega) hb hg ih
    exact h.wrap (by omega) rfl rfl
  | @table n p es ts hk _ hb ih =>
    obtain ⟨m, q, rfl, h⟩ := tableBody_bal (n := n) (by omega) hb hk ih
    exact h.wrap (by omega) rfl rfl

theorem expr_bal {b : Bool} {ts : List Tok} {i : Item} (h : Expr b ts i) : Bal 100 ts := by
  cases h with
  | keyVal hk hv =>
    refine (Bal.flat (by omega) (key_flat hk)).append (Bal.append (a := [_]) ?_ ?_)
    · exact .flat (by omega) (by intro t ht; rw [List.mem_singleton.1 ht]; rfl)
    · exact (val_bal hv).mono (by cases b <;> simp [depthLimit])
  | table hk =>
    exact ((Bal.flat (n := 0) (by omega) (key_flat hk)).wrap (by omega) rfl rfl).mono (by omega)
  | @arrayTable p q kt k hk =>
    have := ((Bal.flat (n := 0) (by omega) (key_flat hk)).wrap (o := (.punct '[', p.plus 1))
      (c := (.punct ']', q)) (by omega) rfl rfl).wrap (o := (.punct '[', p)) (c := (.punct ']', q.plus 1))
      (by omega) rfl rfl
    simpa using this.mono (m := 100) (by omega)

theorem line_bal {b : Bool} {ts : List Tok} {is : List Item} (h : Line b ts is) : Bal 100 ts := by
  have hc : ∀ x p, Bal 100 [(.comment x, p)] := fun x p =>
    .flat (by omega) (by intro t ht; rw [List.mem_singleton.1 ht]; rfl)
  cases h with
  | blank => exact .nil (by omega)
  | comment => exact hc _ _
  | expr h => exact expr_bal h
  | exprComment h => exact (expr_bal h).append (hc _ _)

theorem doc_bal {b : Bool} {ts : List Tok} {is : List Item} (h : Doc b ts is) : Bal 100 ts := by
  induction h with
  | last h => exact line_bal h
  | @more b ts is p ts' is' hl _ ih =>
    refine (line_bal hl).append (Bal.append (a := [_]) ?_ ih)
    exact .flat (by omega) (by intro t ht; rw [List.mem_singleton.1 ht]; rfl)

end Verif.Toml
