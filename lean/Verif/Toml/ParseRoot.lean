import Verif.Toml.ParseHead

/-! # Lemmas for the parser: documents -/

namespace Verif.Toml
open Verif Verif.Spec.Toml

variable {α β σ : Type} {P : Prop} {E : Env} {toks : List Token} {es0 : List Error}
variable {pre p p1 p2 : Str} {s s0 s1 s2 : PS} {u v : List Token} {h : List Comment}

theorem astComments_append (a b : List Ast) : astComments (a ++ b) = astComments a ++ astComments b := by
  simp [astComments]

theorem astComments_map (cs : List Comment) : astComments (cs.map Ast.comment) = cs := by
  induction cs with
  | nil => rfl
  | cons c cs ih => simp only [astComments, List.map_cons, List.filterMap_cons] at *; rw [ih]

/-- The places of the items and the pending comments. -/
def rootPlaces (c : Bool) (r : RootSt) : List Span :=
  r.asts.flatMap (astPlaces c) ++ r.prevComments.map (·.span)

/-- The items gathered so far. -/
structure RootInv (E : Env) (toks : List Token) (es0 : List Error) (pre : Str) (s : PS) (r : RootSt) :
    Prop where
  asts : ∀ a ∈ r.asts, AstAt (¬ SplitPair toks) E.input s.storage.length a
  prevAt : ∀ c ∈ r.prevComments, CommentAt E.input c
  sorted : r.prevComments.Pairwise (fun a b => a.span.start.line < b.span.start.line)
  below : ∀ c ∈ r.prevComments, c.span.start.line < (posOf pre).line ∨
    (c.span.start.line ≤ (posOf pre).line ∧ ((pk E s).ty = .newline ∨ s.rest = []))
  req : r.newlineRequired = true → r.prevComments = [] ∧
    ∃ a, r.asts.getLast? = some a ∧ ∀ c, a ≠ .comment c
  comm : s.errors = es0 → (coms E s.done.reverse).Perm
    (s.coms ++ (astComments r.asts ++ r.prevComments))
  run : ∀ c, (c = true → ¬ SplitPair toks) → InOrder [] (rootPlaces c r) pre
  line : r.newlineRequired = true → s.rest = [] ∨ s.LastNot

theorem places_comments (c : Bool) (cs : List Comment) :
    (cs.map Ast.comment).flatMap (astPlaces c) = cs.map (·.span) := by
  induction cs with
  | nil => rfl
  | cons d cs ih => simp only [List.map_cons, List.flatMap_cons, ih]; rfl

theorem places_last {c : Bool} {asts : List Ast} {a b : Ast} {l : List Span} (ha : asts.getLast? = some a)
    (hb : astPlaces c b = astPlaces c a ++ l) :
    (asts.dropLast ++ [b]).flatMap (astPlaces c) = asts.flatMap (astPlaces c) ++ l := by
  obtain ⟨ys, rfl⟩ := List.getLast?_eq_some_iff.1 ha
  simp [hb]

theorem _root_.Verif.Spec.Toml.AssignmentAt.mono {input : Str} {n m : Nat} {a : ToplevelAssignment}
    (h : AssignmentAt input n a) (hm : n ≤ m) : AssignmentAt input m a :=
  ⟨h.comments.mono hm, h.key, h.eq, h.val.mono hm⟩

theorem _root_.Verif.Spec.Toml.AstAt.mono {o : Prop} {input : Str} {n m : Nat} {a : Ast}
    (h : AstAt o input n a) (hm : n ≤ m) : AstAt o input m a := by
  cases h with
  | assignment h => exact .assignment (h.mono hm)
  | table h1 h2 h3 h4 h5 => exact .table (h1.mono hm) h2 h3 h4 (fun a ha => (h5 a ha).mono hm)
  | array h1 h2 h3 h4 h5 h6 => exact .array (h1.mono hm) h2 h3 h4 h5 (fun a ha => (h6 a ha).mono hm)
  | comment h => exact .comment h

theorem posOf_line_mono {x y : Str} (h : x <+: y) : (posOf x).line ≤ (posOf y).line := by
  obtain ⟨z, rfl⟩ := h
  rw [posOf_line_append]; omega

theorem Nw.noErr (hG : Good E toks es0 pre s) (hN : Nw E toks es0 pre s u p s1) (h : s1.errors = es0) :
    s.errors = es0 := by
  obtain ⟨new, h1, -⟩ := hG.errs
  have := hN.errs
  rw [h, h1] at this
  have hl := this.length_le
  simp only [List.length_append] at hl
  have : new = [] := List.length_eq_zero_iff.1 (by omega)
  rw [h1, this, List.append_nil]

theorem Nx.perm {X : List Comment} (hG : Good E toks es0 pre s) (hN : Nx E toks es0 pre s u p s1 [])
    (hc : s.errors = es0 → (coms E s.done.reverse).Perm (s.coms ++ X)) (he : s1.errors = es0) :
    (coms E s1.done.reverse).Perm (s1.coms ++ X) := by
  have h0 := hN.toNw.noErr hG he
  have h1 := hN.comm (he.trans h0.symm)
  rw [List.append_nil] at h1
  rw [hN.toNw.done_eq hG, h1, coms_append]
  refine ((hc h0).append_right (coms E u)).trans ?_
  rw [List.append_assoc, List.append_assoc]
  exact List.Perm.append_left _ List.perm_append_comm

/-- At the start of an item, the pending comments are on earlier lines. -/
theorem RootInv.start {r : RootSt} (hI : RootInv E toks es0 pre s r) (h1 : (pk E s).ty ≠ .newline)
    (h2 : s.rest ≠ []) : ∀ c ∈ r.prevComments, c.span.start.line < (posOf pre).line := by
  intro c hc
  rcases hI.below c hc with h | ⟨-, h | h⟩
  · exact h
  · exact absurd h h1
  · exact absurd h h2

/-- An item is dropped. -/
theorem RootInv.bad {r : RootSt} (hI : RootInv E toks es0 pre s r)
    (hb : ∀ c ∈ r.prevComments, c.span.start.line < (posOf pre).line)
    (hN : Nw E toks es0 pre s u p s1) (he : s1.errors ≠ es0) (hl : s1.LastNot) :
    RootInv E toks es0 p s1 r :=
  ⟨fun a ha => (hI.asts a ha).mono hN.stor, hI.prevAt, hI.sorted,
    fun c hc => .inl (Nat.lt_of_lt_of_le (hb c hc) (posOf_line_mono hN.seg.prefix)), hI.req,
    fun h => absurd h he, fun c hc => (hI.run c hc).upto hN.seg.prefix, fun _ => .inr hl⟩

theorem RootInv.keep {r : RootSt} (hG : Good E toks es0 pre s) (hI : RootInv E toks es0 pre s r)
    (hb : ∀ c ∈ r.prevComments, c.span.start.line < (posOf pre).line)
    (hN : Nx E toks es0 pre s u p s1 []) (hl : s1.LastNot) : RootInv E toks es0 p s1 r :=
  ⟨fun a ha => (hI.asts a ha).mono hN.stor, hI.prevAt, hI.sorted,
    fun c hc => .inl (Nat.lt_of_lt_of_le (hb c hc) (posOf_line_mono hN.seg.prefix)), hI.req,
    fun h => hN.perm hG hI.comm h, fun c hc => (hI.run c hc).upto hN.seg.prefix, fun _ => .inr hl⟩

/-! ## Comments -/

theorem assocPosition_some : ∀ (cs : List Comment) (line i : Nat),
    cs.Pairwise (fun a b => b.span.start.line < a.span.start.line) →
    (∀ c ∈ cs, c.span.start.line < line) →
    ∃ o, assocPosition cs line i = some o ∧ ∀ k, o = some k → k < i + cs.length := by
  intro cs
  induction cs with
  | nil => intro line i _ _; exact ⟨none, rfl, by simp⟩
  | cons c cs ih =>
    intro line i hp hl
    rw [List.pairwise_cons] at hp
    have h1 := hl c (by simp)
    unfold assocPosition
    simp only [subU, if_pos (show 1 ≤ line by omega), Option.bind_eq_bind, Option.bind_some]
    split
    · obtain ⟨o, e1, e2⟩ := ih (line - 1) (i + 1) hp.2 (fun c' hc' => by
        have := hp.1 c' hc'; omega)
      refine ⟨o, e1, fun k hk => ?_⟩
      have := e2 k hk
      simp only [List.length_cons]; omega
    · refine ⟨some i, rfl, fun k hk => ?_⟩
      simp only [Option.some.injEq] at hk
      simp only [List.length_cons]; omega

theorem findAssociated_eq {cs : List Comment} {line : Nat}
    (hp : cs.Pairwise (fun a b => a.span.start.line < b.span.start.line))
    (hl : ∀ c ∈ cs, c.span.start.line < line) :
    ∃ n, ∀ (k : Nat → M β) (s : PS), (findAssociatedComments cs line >>= k) s = k n s := by
  obtain ⟨o, h1, h2⟩ := assocPosition_some cs.reverse line 0 (List.pairwise_reverse.2 hp)
    (fun c hc => hl c (List.mem_reverse.1 hc))
  unfold findAssociatedComments
  rw [h1]
  cases o with
  | none => exact ⟨0, fun k s => bind_lift _ _ rfl⟩
  | some l =>
    have := h2 l rfl
    simp only [List.length_reverse] at this
    refine ⟨cs.length - l, fun k s => bind_lift _ _ ?_⟩
    simp only [Option.bind_eq_bind, Option.bind_some, subU, if_pos (show l ≤ cs.length by omega)]

theorem addComments_eq {pos : AssocPos} : ∀ (cs : List Comment) {r : CommentRange} {s : PS},
    RangeIn s.storage.length r → ∃ r' new, RangeIn (s.storage.length + cs.length) r' ∧
      new.map (·.comment) = cs ∧ r'.start = r.start ∧
      ∀ (k : CommentRange → M β), (addComments r pos cs >>= k) s =
        k r' { s with storage := s.storage ++ new } := by
  intro cs
  induction cs with
  | nil =>
    intro r s hr
    refine ⟨r, [], hr, rfl, rfl, fun k => ?_⟩
    rw [List.append_nil]; rfl
  | cons c cs ih =>
    intro r s hr
    have hrs : r.start ≤ s.storage.length := by unfold RangeIn at hr; omega
    obtain ⟨r', new, h1, h2, h3, h4⟩ := @ih ⟨r.start, s.storage.length - r.start + 1, r.level⟩
      { s with storage := s.storage ++ [⟨pos, r.level, c⟩] }
      (by unfold RangeIn; simp only [List.length_append, List.length_singleton]; omega)
    refine ⟨r', ⟨pos, r.level, c⟩ :: new, ?_, by simp [h2], h3, fun k => ?_⟩
    · have e : (s.storage ++ [(⟨pos, r.level, c⟩ : AssocComment)]).length + cs.length =
          s.storage.length + (c :: cs).length := by
        simp only [List.length_append, List.length_cons, List.length_nil]; omega
      rw [← e]; exact h1
    · have := h4 k
      simp only [List.append_assoc, List.singleton_append] at this
      rw [← this]
      have e : addComments r pos (c :: cs) s = addComments
          ⟨r.start, s.storage.length - r.start + 1, r.level⟩ pos cs
          { s with storage := s.storage ++ [⟨pos, r.level, c⟩] } := by
        rw [addComments]
        show M.bind _ _ s = _
        rw [M.bind, addComment_eq hrs]
      show M.bind (addComments r pos (c :: cs)) k s = M.bind _ k _
      rw [M.bind, e]
      rfl

theorem storeComments_eq {pos : AssocPos} {cs : List Comment} {level : Nat} {s : PS} :
    ∃ r' new, RangeIn (s.storage.length + cs.length) r' ∧ new.map (·.comment) = cs ∧
      r'.start = s.storage.length ∧
      ∀ (k : CommentRange → M β), (storeComments cs pos level >>= k) s =
        k r' { s with storage := s.storage ++ new } := by
  obtain ⟨r', new, h1, h2, h3, h4⟩ := addComments_eq (β := β) (pos := pos) cs
    (r := ⟨s.storage.length, 0, level⟩) (s := s) (by unfold RangeIn; simp)
  refine ⟨r', new, h1, h2, h3, fun k => ?_⟩
  rw [← h4 k]
  rfl

theorem Good.addStor {new : List AssocComment} (hG : Good E toks es0 pre s)
    (hn : ∀ c ∈ new.map (·.comment), CommentAt E.input c) :
    Nw E toks es0 pre s [] pre { s with storage := s.storage ++ new } := by
  refine ⟨⟨hG.chain, hG.com, hG.all, hG.done, hG.errs, ?_, hG.eofTy, hG.eofStart⟩, .nil, rfl,
    List.prefix_refl _, by simp⟩
  intro c hc
  rcases List.mem_append.1 hc with hc | hc
  · exact hG.stor c hc
  · exact hn _ (List.mem_map.2 ⟨c, hc, rfl⟩)

/-! ## Headers -/

theorem parOffset_right {l r : Pos} (h : l.char < r.char) :
    parOffset ovf l (some r) = some (some ((r.char : Int) - l.char)) := by
  unfold parOffset
  dsimp only
  rw [if_neg (fun h' => by have := h'.2; omega), if_neg (by omega)]

theorem parOffset_none {l r : Pos} (h : parOffset ovf l (some r) = none) :
    if ovf then r.char ≤ l.char else r.char = l.char := by
  unfold parOffset at h
  cases ovf with
  | true =>
    simp only [true_and] at h
    split at h
    · simp only [if_true]; omega
    · split at h
      · simp only [if_true]; omega
      · cases h
  | false =>
    simp only [Bool.false_eq_true, false_and, if_false] at h ⊢
    split at h
    · assumption
    · cases h

/-- A closing bracket among the tokens `u` behind the opening bracket `l`, on another line but with no end of
a line in front of it, and not to the right of `l`. -/
def SplitAt (ovf : Bool) (l : Token) (u : List Token) : Prop :=
  ∃ m t n, u = m ++ t :: n ∧ t.ty = .squareRight ∧ (∀ t' ∈ m, endsLine t'.ty = false) ∧
    l.start.line ≠ t.start.line ∧ if ovf then t.start.char ≤ l.start.char else t.start.char = l.start.char

theorem SplitAt.back {ovf : Bool} {a b u : List Token} {l : Token} (h : SplitAt ovf l u) (hl : l.ty = .squareLeft)
    (htoks : toks = a ++ l :: u ++ b) : SplitBack ovf toks := by
  obtain ⟨m, t, n, rfl, h3, h2, h5, h6⟩ := h
  refine ⟨l, t, ⟨a, m, n ++ b, by rw [htoks]; simp, hl, h3, fun t' ht' => ?_⟩, h5, h6⟩
  have := h2 t' ht'
  constructor
  · intro e; rw [e] at this; cases this
  · intro id e; rw [e] at this; cases this

theorem SplitAt.more {ovf : Bool} {u : List Token} {l : Token} (h : SplitAt ovf l u) (v : List Token) :
    SplitAt ovf l (u ++ v) := by
  obtain ⟨m, t, n, rfl, h⟩ := h
  exact ⟨m, t, n ++ v, by simp, h⟩

theorem Sat.weaken {α : Type} {P P' : Prop} {r : Run α} {Q : α → PS → Prop} (h : Sat P r Q) (hp : P → P') :
    Sat P' r Q := by
  cases r with
  | ok a s => exact h
  | panic => exact hp h
  | timeout => exact h

/-- The offset of a closing bracket. -/
theorem parOffset_post {a : List Token} {l : Token} {b : List Token} {x : Str} {q : Option Pos}
    (hl : l.ty = .squareLeft) (hls : l.start = posOf x) (htoks : toks = a ++ l :: u ++ b)
    (hq : ∀ p, q = some p → Closes E u (x ++ ['[']) p) :
    (parOffset E.ovf (posOf x) q = none → SplitAt E.ovf l u) ∧
      ∀ o, parOffset E.ovf (posOf x) q = some o → ¬ SplitPair toks →
        ParAt E.input ']' (o.map (parPlus (posOf x))) ∧ o.map (parPlus (posOf x)) = q := by
  cases q with
  | none =>
    refine ⟨by simp [parOffset], ?_⟩
    intro o ho _
    cases ho
    refine ⟨?_, rfl⟩
    intro q hq; cases hq
  | some p =>
    obtain ⟨m, t, n, y, rfl, h2, h3, h4, h5, h6, h7⟩ := hq p rfl
    have hpair : BracketPair toks l t := by
      refine ⟨a, m, n ++ b, by rw [htoks]; simp, hl, h3, fun t' ht' => ?_⟩
      have := h2 t' ht'
      constructor
      · intro e; rw [e] at this; cases this
      · intro id e; rw [e] at this; cases this
    have hxy : x <+: y := (List.prefix_append _ _).trans h6
    have hne : x ≠ y := by
      rintro rfl
      have := h6.length_le
      simp only [List.length_append, List.length_cons, List.length_nil] at this
      omega
    constructor
    · intro hnone
      refine ⟨m, t, n, rfl, h3, h2, ?_, ?_⟩
      · intro hline
        rw [hls, h4, h5] at hline
        obtain ⟨k, k1, k2⟩ := posOf_same_line hxy hline
        have k2 := k2 hne
        have hc : p.char = (posOf x).char + k := by rw [h5, k1]; rfl
        rw [parOffset_right (by omega)] at hnone
        cases hnone
      · rw [hls, h4]
        exact parOffset_none hnone
    · intro o ho hns
      have hline : (posOf x).line = (posOf y).line := by
        by_cases hline : (posOf x).line = (posOf y).line
        · exact hline
        · exact absurd ⟨l, t, hpair, by rw [hls, h4, h5]; exact hline⟩ hns
      obtain ⟨k, k1, k2⟩ := posOf_same_line hxy hline
      have k2 := k2 hne
      have hc : p.char = (posOf x).char + k := by rw [h5, k1]; rfl
      rw [parOffset_right (by omega), hc] at ho
      cases ho
      have heq : parPlus (posOf x) ((((posOf x).char + k : Nat) : Int) - (posOf x).char) = p := by
        rw [h5, k1]
        unfold parPlus Pos.plus
        congr 1
        omega
      simp only [Option.map_some, heq, and_true]
      intro q hq
      cases hq
      exact h7

theorem lift_post {o : Option α} {f : α → M β} {Q : β → PS → Prop} (hn : o = none → P)
    (hs : ∀ a, o = some a → Sat P (f a s) Q) : Sat P ((M.lift o >>= f) s) Q := by
  cases o with
  | none => exact hn rfl
  | some a => exact hs a rfl

theorem finishHeader_post {r : RootSt} {x : Str} {lArray : Option Pos} {key : Option Key}
    {rPars : Option Pos × Option Pos} {a b : List Token} {l : Token}
    (hl : l.ty = .squareLeft) (hls : l.start = posOf x) (hx : x ++ ['['] <+: pre)
    (htoks : toks = a ++ l :: u ++ b)
    (hG : Good E toks es0 pre s) (hI : RootInv E toks es0 pre s r)
    (hb : ∀ c ∈ r.prevComments, c.span.start.line < (posOf x).line)
    (hch : CharAt E.input (posOf x) '[')
    (hla : ∀ q, lArray = some q → CharAt E.input q '[')
    (hk : ∀ k, key = some k → KeyAt E.input k)
    (h1 : ∀ p, rPars.1 = some p → Closes E u (x ++ ['[']) p)
    (h2 : ∀ p, rPars.2 = some p → Closes E u (x ++ ['[']) p)
    (hrun : ∀ c, (c = true → ¬ SplitPair toks) → InOrder [] (rootPlaces c r) x)
    (hhead : InOrder (x ++ ['[']) (optPlace lArray ++ headKeyPlaces key ++
      (optPlace rPars.1 ++ optPlace rPars.2)) pre) (hlast : s.LastNot) :
    Sat (SplitAt E.ovf l u) (finishHeader E.ovf r (posOf x) lArray key rPars s) (fun r' s' =>
      Nw E toks es0 pre s [] pre s' ∧ RootInv E toks es0 pre s' r' ∧ s'.rest = s.rest) := by
  unfold finishHeader
  obtain ⟨n, hn⟩ := findAssociated_eq (β := RootSt) hI.sorted hb
  rw [hn]
  obtain ⟨rg, new, a1, a2, a3, a4⟩ := storeComments_eq (β := RootSt) (pos := .above)
    (cs := r.prevComments.drop n) (level := 0) (s := s)
  rw [a4]
  clear a4
  have hnew : ∀ c ∈ new.map (·.comment), CommentAt E.input c := by
    rw [a2]; intro c hc; exact hI.prevAt c (List.mem_of_mem_drop hc)
  have hN := hG.addStor hnew
  have hlen : new.length = (r.prevComments.drop n).length := by rw [← a2]; simp
  have hrg : RangeIn (s.storage ++ new).length rg := by
    rw [List.length_append, hlen]; exact a1
  have hinv : ∀ ast, AstAt (¬ SplitPair toks) E.input (s.storage ++ new).length ast →
      (∀ c, ast ≠ .comment c) →
      (∀ c, (c = true → ¬ SplitPair toks) → InOrder x (astPlaces c ast) pre) →
      RootInv E toks es0 pre { s with storage := s.storage ++ new }
        ⟨r.asts ++ (r.prevComments.take n).map Ast.comment ++ [ast], [], true⟩ := by
    intro ast hast hnc hpl
    refine ⟨?_, by simp, .nil, by simp, fun _ => ⟨rfl, ast, by simp, hnc⟩, ?_, ?_, fun _ => .inr hlast⟩
    · intro a ha
      simp only [List.mem_append, List.mem_singleton, List.mem_map] at ha
      rcases ha with (ha | ⟨c, hc, rfl⟩) | rfl
      · exact (hI.asts a ha).mono (by simp)
      · exact .comment (hI.prevAt c (List.mem_of_mem_take hc))
      · exact hast
    · intro he
      refine (hI.comm he).trans ?_
      have e1 : astComments [ast] = [] := by
        cases ast with
        | comment c => exact absurd rfl (hnc c)
        | _ => rfl
      have e2 : PS.coms { s with storage := s.storage ++ new } = s.coms ++ r.prevComments.drop n := by
        show (s.storage ++ new).map _ = _
        rw [List.map_append, a2]; rfl
      rw [e2]
      simp only [astComments_append, astComments_map, e1, List.append_nil]
      rw [List.append_assoc]
      refine List.Perm.append_left _ ?_
      refine List.Perm.trans ?_ List.perm_append_comm
      rw [List.append_assoc, List.take_append_drop]
    · intro c hc
      simp only [rootPlaces, List.flatMap_append, places_comments, List.map_nil, List.append_nil,
        List.flatMap_cons, List.flatMap_nil]
      refine InOrder.append ((hrun c hc).sublist ?_) (hpl c hc)
      unfold rootPlaces
      exact List.Sublist.append_left ((List.take_sublist _ _).map _) _
  have hopen : InOrder x [Span.asciiChar (posOf x)] (x ++ ['[']) :=
    .char (by decide) (by decide) rfl (List.prefix_refl _) (List.prefix_refl _)
  cases lArray with
  | some q =>
    simp only []
    refine lift_post ?_ ?_
    · intro hnone
      unfold ArrayHeader.new at hnone
      cases h : parOffset E.ovf (posOf x, q).1 rPars.1 with
      | none => exact (parOffset_post hl hls htoks h1).1 h
      | some o1 =>
        cases h' : parOffset E.ovf (posOf x, q).1 rPars.2 with
        | none => exact (parOffset_post hl hls htoks h2).1 h'
        | some o2 => simp [h, h'] at hnone
    · intro hd hsome
      unfold ArrayHeader.new at hsome
      cases h : parOffset E.ovf (posOf x, q).1 rPars.1 with
      | none => simp [h] at hsome
      | some o1 =>
        cases h' : parOffset E.ovf (posOf x, q).1 rPars.2 with
        | none => simp [h, h'] at hsome
        | some o2 =>
          simp only [h, h', Option.bind_eq_bind, Option.bind_some, Option.pure_def,
            Option.some.injEq] at hsome
          subst hsome
          refine Sat.pure ⟨hN, hinv _ ?_ (by simp) ?_, rfl⟩
          · exact .array hrg hch (hla q rfl) (fun ho => ⟨((parOffset_post hl hls htoks h1).2 o1 h ho).1,
              ((parOffset_post hl hls htoks h2).2 o2 h' ho).1⟩) hk (by simp)
          · intro c hc
            have := hopen.append hhead
            cases c with
            | false =>
              refine this.sublist ?_
              simp only [astPlaces, optPlace, Bool.false_eq_true, if_false, List.flatMap_nil, List.append_nil,
                List.append_assoc, List.cons_append, List.nil_append]
              exact .cons_cons _ (.cons_cons _ (List.sublist_append_left _ _))
            | true =>
              have g1 := ((parOffset_post hl hls htoks h1).2 o1 h (hc rfl)).2
              have g2 := ((parOffset_post hl hls htoks h2).2 o2 h' (hc rfl)).2
              simp only [astPlaces, ArrayHeader.rPars, g1, g2]
              simpa [optPlace] using this
  | none =>
    simp only []
    refine lift_post ?_ ?_
    · intro hnone
      unfold TableHeader.new at hnone
      cases h : parOffset E.ovf (posOf x) rPars.2 with
      | none => exact (parOffset_post hl hls htoks h2).1 h
      | some o1 => simp [h] at hnone
    · intro hd hsome
      unfold TableHeader.new at hsome
      cases h : parOffset E.ovf (posOf x) rPars.2 with
      | none => simp [h] at hsome
      | some o1 =>
        simp only [h, Option.bind_eq_bind, Option.bind_some, Option.pure_def,
          Option.some.injEq] at hsome
        subst hsome
        refine Sat.pure ⟨hN, hinv _ ?_ (by simp) ?_, rfl⟩
        · exact .table hrg hch (fun ho => ((parOffset_post hl hls htoks h2).2 o1 h ho).1) hk (by simp)
        · intro c hc
          have := hopen.append hhead
          cases c with
          | false =>
            refine this.sublist ?_
            simp only [astPlaces, optPlace, Bool.false_eq_true, if_false, List.flatMap_nil, List.append_nil,
              List.append_assoc, List.cons_append, List.nil_append]
            exact .cons_cons _ (List.sublist_append_left _ _)
          | true =>
            have g2 := ((parOffset_post hl hls htoks h2).2 o1 h (hc rfl)).2
            simp only [astPlaces, TableHeader.rPar, g2]
            refine this.sublist ?_
            simp only [optPlace, if_true, List.flatMap_nil, List.append_nil,
              List.append_assoc, List.cons_append, List.nil_append]
            exact .cons_cons _ (List.Sublist.append_left (List.sublist_append_right _ _) _)

/-- The outcome of an item. -/
def RootPost (E : Env) (toks : List Token) (es0 : List Error) (pre : Str) (s : PS) (r : RootSt)
    (s' : PS) : Prop :=
  ∃ u p', u ≠ [] ∧ Nw E toks es0 pre s u p' s' ∧ RootInv E toks es0 p' s' r

theorem rootHeader_post' {r : RootSt} (hG : Good E toks es0 pre s) (hI : RootInv E toks es0 pre s r)
    (he : (pk E s).ty = .squareLeft) :
    Sat (SplitAt E.ovf (pk E s) s.rest.tail) (rootHeader E (pk E s) r s) (RootPost E toks es0 pre s) := by
  obtain ⟨x, y, e1, e2, e3, e4⟩ := hG.char (by rw [he]; simp) (by rw [he]; simp)
  have hy := e2.text
  rw [he] at hy
  simp only at hy
  subst hy
  have hch := e2.charAt rfl e3.good.chain.prefix
  have hst := hI.start (by rw [he]; simp) (by intro h; rw [h] at e4; simp at e4)
  unfold rootHeader
  rw [bind_mark, bind_next]
  simp only [e2.start]
  have hsr : s.rest = pk E s :: s.adv.rest := e3.rest
  obtain ⟨vw, bw, w1, w2, w3⟩ := hG.nextSome (by rw [he]; simp)
  have hvw := w3.sl.2 he
  simp only [Option.some.injEq] at hvw
  subst hvw
  have hM : (View.punct '[', posOf x) ∈ views E s.adv.done.reverse := by
    rw [← e2.start]
    exact e3.good.mem_done (by rw [adv_done hsr]; simp) w2
  refine Sat.bind (openArray_post e3.good ⟨_, _, adv_done hsr, he, e2.start⟩) ?_
  rintro lArray s1 ⟨u1, q1, a1, a2, a3, a4⟩
  refine Sat.bind (headerKey_post a1.good) ?_
  rintro ⟨key, skip⟩ s2 ⟨u2, q2, b1, b2, b3, b4, b5⟩
  simp only []
  refine Sat.bind (closeHeader_post b1.good (e2.start ▸ hch) ((a1.trans b1).toNw.mem_views e3.good hM)
    (fun q hq => ⟨(a3 q hq).1, b1.toNw.mem_views a1.good (a3 q hq).2⟩) b5) ?_
  rintro rPars s3 ⟨u3, q3, c1, c0, c2, c3, c4⟩
  have h123 := (a1.trans b1).trans c1
  have hN := e3.trans h123
  have hN0 := hN.toNw
  have hcl : ∀ q, Closes E u3 q2 q → Closes E (u1 ++ u2 ++ u3) (x ++ ['[']) q := by
    intro q hq
    rw [List.append_assoc]
    exact (hq.prepend b2 b1.seg.prefix).prepend a2 a1.seg.prefix
  have hul : ∀ t ∈ [pk E s] ++ (u1 ++ u2 ++ u3), endsLine t.ty = false := by
    intro t ht
    simp only [List.mem_append, List.mem_singleton] at ht
    rcases ht with rfl | (ht | ht) | ht
    · rw [he]; rfl
    · exact a2 t ht
    · exact b2 t ht
    · exact c0 t ht
  have hlast : r.newlineRequired = true → s.LastNot := fun h => by
    rcases hI.line h with h | h
    · rw [h] at hsr; cases hsr
    · exact h
  refine Sat.bind (checkNewline_post hG hN0 (by simp) hul hlast) ?_
  rintro b s4 hb4
  cases b with
  | true =>
    rw [if_pos rfl] at hb4
    obtain ⟨d1, d2, d3, d4⟩ := hb4
    rw [if_pos rfl]
    have hND := hN.trans d1
    have hln : s4.LastNot := hND.toNw.lastNot_of hG (by simp) (by rw [List.append_nil]; exact hul)
    have hIN := hI.keep hG hst hND hln
    have htoks : toks = s.done.reverse ++ pk E s :: (u1 ++ u2 ++ u3) ++ s4.rest := by
      rw [hG.all, hN.rest, d2]; simp
    have hxp : x ++ ['['] <+: q3 := h123.seg.prefix
    refine (finishHeader_post he e2.start hxp htoks hND.good hIN ?_ (by rw [← e2.start]; exact hch)
      (fun q hq => (a3 q hq).1) b3 (fun p hp => hcl p (c2 p hp)) (fun p hp => hcl p (c3 p hp))
      (fun c hc => (hI.run c hc).upto e1) ((a4.append b4).append c4) hln).mono ?_ |>.weaken (fun h => ?_)
    · intro c hc
      exact Nat.lt_of_lt_of_le (hst c hc) (posOf_line_mono e1)
    · rintro r' s5 ⟨f1, f2, f3⟩
      exact ⟨_, _, by simp, hND.toNw.trans f1, f2⟩
    · have : s.rest.tail = u1 ++ u2 ++ u3 ++ s3.rest := by rw [hN.rest]; simp
      rw [this]
      exact h.more _
  | false =>
    rw [if_neg (by simp)] at hb4
    obtain ⟨d0, v, p', d1, d2, d3⟩ := hb4
    rw [if_neg (by simp)]
    exact Sat.pure (Q := RootPost E toks es0 pre s) ⟨_, _, by simp, d1,
      hI.bad hst d1 d2 (d1.lastNot_of hG (by simp) d3)⟩

theorem rootHeader_post {r : RootSt} (hG : Good E toks es0 pre s) (hI : RootInv E toks es0 pre s r)
    (he : (pk E s).ty = .squareLeft) :
    Sat (SplitBack E.ovf toks) (rootHeader E (pk E s) r s) (RootPost E toks es0 pre s) := by
  refine (rootHeader_post' hG hI he).weaken fun h => h.back he (a := s.done.reverse) (b := []) ?_
  rw [hG.all]
  cases hr : s.rest with
  | nil => rw [hG.pk_eof hr, hG.eofTy] at he; cases he
  | cons t ts => simp [pk, hr]

/-! ## Comments and newlines -/

theorem append_eq {r : CommentRange} {id : Nat} (hr : r.start ≤ id) :
    r.append id = some ⟨r.start, id - r.start + 1, r.level⟩ := by
  unfold CommentRange.append subU
  rw [if_pos hr]; rfl

theorem range_append {n : Nat} {r : CommentRange} (hr : RangeIn n r) :
    ∃ r', r.append n = some r' ∧ RangeIn (n + 1) r' := by
  have hs : r.start ≤ n := by unfold RangeIn at hr; omega
  refine ⟨_, append_eq hs, ?_⟩
  unfold RangeIn; simp only; omega

theorem appendLast_post {input : Str} {n : Nat} : ∀ (as : List ToplevelAssignment), as ≠ [] →
    (∀ a ∈ as, AssignmentAt input n a) →
    ∃ as', appendLast as n = some as' ∧ (∀ a ∈ as', AssignmentAt input (n + 1) a) ∧
      as'.flatMap assignmentPlaces = as.flatMap assignmentPlaces := by
  intro as
  induction as with
  | nil => intro h; exact absurd rfl h
  | cons a as ih =>
    intro _ hall
    cases as with
    | nil =>
      obtain ⟨r', h1, h2⟩ := range_append (hall a (by simp)).comments
      refine ⟨[{ a with comments := r' }], by unfold appendLast; rw [h1]; rfl, ?_, rfl⟩
      intro b hb
      rw [List.mem_singleton.1 hb]
      have := (hall a (by simp)).mono (Nat.le_succ n)
      exact ⟨h2, this.key, this.eq, this.val⟩
    | cons b l =>
      obtain ⟨as', h1, h2, h3⟩ := ih (by simp) (fun c hc => hall c (List.mem_cons_of_mem _ hc))
      refine ⟨a :: as', by unfold appendLast; rw [h1]; rfl, ?_, by rw [List.flatMap_cons, h3]; rfl⟩
      intro c hc
      rcases List.mem_cons.1 hc with rfl | hc
      · exact (hall c (by simp)).mono (Nat.le_succ n)
      · exact h2 c hc

theorem appendComment_post {o : Prop} {input : Str} {n : Nat} {a : Ast} (ha : AstAt o input n a)
    (hnc : ∀ c, a ≠ .comment c) : ∃ a', a.appendComment n = some a' ∧ AstAt o input (n + 1) a' ∧
      (∀ c, a' ≠ .comment c) ∧ ∀ c, astPlaces c a' = astPlaces c a := by
  cases ha with
  | comment h => exact absurd rfl (hnc _)
  | @assignment a h =>
    obtain ⟨r', h1, h2⟩ := range_append h.comments
    have := h.mono (Nat.le_succ n)
    refine ⟨.assignment { a with comments := r' }, ?_, .assignment ⟨h2, this.key, this.eq, this.val⟩,
      by simp, fun _ => rfl⟩
    simp only [Ast.appendComment, h1, Option.map_some]
  | @table t h1 h2 h3 h4 h5 =>
    by_cases he : t.assignments = []
    · obtain ⟨r', g1, g2⟩ := range_append h1
      refine ⟨.table { t with comments := r' }, ?_, .table g2 h2 h3 h4 (by simp [he]), by simp, fun _ => rfl⟩
      simp only [Ast.appendComment, Table.appendComment, he, List.isEmpty_nil, if_true, g1,
        Option.bind_eq_bind, Option.bind_some, Option.pure_def, Option.map_some]
    · obtain ⟨as', g1, g2, g3⟩ := appendLast_post t.assignments he h5
      refine ⟨.table { t with assignments := as' }, ?_,
        .table (h1.mono (Nat.le_succ n)) h2 h3 h4 g2, by simp,
        fun c => by simp only [astPlaces, g3]⟩
      simp only [Ast.appendComment, Table.appendComment, List.isEmpty_iff, he, if_false, g1,
        Option.bind_eq_bind, Option.bind_some, Option.pure_def, Option.map_some]
  | @array t h1 h2 h2' h3 h4 h5 =>
    by_cases he : t.assignments = []
    · obtain ⟨r', g1, g2⟩ := range_append h1
      refine ⟨.array { t with comments := r' }, ?_, .array g2 h2 h2' h3 h4 (by simp [he]), by simp, fun _ => rfl⟩
      simp only [Ast.appendComment, ArrayEntry.appendComment, he, List.isEmpty_nil, if_true, g1,
        Option.bind_eq_bind, Option.bind_some, Option.pure_def, Option.map_some]
    · obtain ⟨as', g1, g2, g3⟩ := appendLast_post t.assignments he h5
      refine ⟨.array { t with assignments := as' }, ?_,
        .array (h1.mono (Nat.le_succ n)) h2 h2' h3 h4 g2, by simp,
        fun c => by simp only [astPlaces, g3]⟩
      simp only [Ast.appendComment, ArrayEntry.appendComment, List.isEmpty_iff, he, if_false, g1,
        Option.bind_eq_bind, Option.bind_some, Option.pure_def, Option.map_some]

theorem getLast_split {l : List α} {a : α} (h : l.getLast? = some a) : l = l.dropLast ++ [a] := by
  obtain ⟨ys, rfl⟩ := List.getLast?_eq_some_iff.1 h
  simp

theorem mem_of_dropLast {l : List α} {a : α} (h : a ∈ l.dropLast) : a ∈ l :=
  List.dropLast_subset _ h

theorem astComments_one {a : Ast} (h : ∀ c, a ≠ .comment c) : astComments [a] = [] := by
  cases a with
  | comment c => exact absurd rfl (h c)
  | _ => rfl

theorem rootComment_post {r : RootSt} {id : Nat} (hG : Good E toks es0 pre s)
    (hI : RootInv E toks es0 pre s r) (he : (pk E s).ty = .comment id) :
    Sat P (rootComment E (pk E s) id r s) (RootPost E toks es0 pre s) := by
  obtain ⟨g, y, h1, h2, h3, h4⟩ := hG.adv' (by rw [he]; simp)
  have hst := hI.start (by rw [he]; simp) (by rw [h3]; simp)
  obtain ⟨z, hz⟩ := h4.good.chain.prefix
  obtain ⟨l, e1, e2, e3⟩ := h2.commentAt he (z := z) (by rw [hz])
  unfold rootComment
  rw [bind_next]
  unfold getComment
  rw [bind_lift (a := (⟨Span.fromPosLen (pk E s).start (1 + blen l), l⟩ : Comment)) _ _ (by rw [e1]; rfl)]
  rw [coms_comment he e1] at h4
  have hdone : coms E s.adv.done.reverse = coms E s.done.reverse ++
      [⟨Span.fromPosLen (pk E s).start (1 + blen l), l⟩] := by
    rw [h4.toNw.done_eq hG, coms_append, coms_comment he e1]
  generalize hc : (⟨Span.fromPosLen (pk E s).start (1 + blen l), l⟩ : Comment) = c at *
  have hcl : c.span.start = posOf (pre ++ g) := by
    rw [← hc, ← h2.start]; rfl
  have hco : s.adv.coms = s.coms := by unfold PS.coms; rw [s.adv_storage]
  split
  · rename_i hreq
    obtain ⟨g1, a, g2, g3⟩ := hI.req hreq
    have hsp := getLast_split g2
    show Sat P ((match r.asts.getLast? with
      | none => M.panic
      | some a => do
        let a ← M.lift (a.appendComment s.adv.storage.length)
        pure { r with asts := r.asts.dropLast ++ [a] } : M RootSt)
      { s.adv with storage := s.adv.storage ++ [⟨.lineEnd, 0, c⟩] }) _
    rw [g2]
    simp only []
    have hmem : a ∈ r.asts := by rw [hsp]; simp
    have hlen : s.adv.storage.length = s.storage.length := by rw [s.adv_storage]
    rw [hlen]
    obtain ⟨a', b1, b2, b3, b4⟩ := appendComment_post (hI.asts a hmem) g3
    rw [bind_lift _ _ b1]
    have hN : Nw E toks es0 pre s [pk E s] (pre ++ g ++ y)
        { s.adv with storage := s.adv.storage ++ [⟨.lineEnd, 0, c⟩] } :=
      (Nx.store (h := []) h4 e3 (a := ⟨.lineEnd, 0, c⟩) rfl).toNw
    refine Sat.pure (Q := RootPost E toks es0 pre s) ⟨_, _, by simp, hN, ?_, ?_, ?_, ?_, ?_, ?_, ?_,
      fun _ => .inr ⟨_, _, adv_done h3, by rw [he]; simp⟩⟩
    · intro b hb
      simp only [List.length_append, List.length_singleton, hlen]
      rcases List.mem_append.1 hb with hb | hb
      · exact (hI.asts b (mem_of_dropLast hb)).mono (Nat.le_succ _)
      · rw [List.mem_singleton.1 hb]; exact b2
    · simp [g1]
    · simp [g1]
    · simp [g1]
    · intro _
      exact ⟨g1, a', by simp, b3⟩
    · intro hes
      have hes' : s.errors = es0 := by rw [← hes]; exact s.adv_errors.symm
      have := hI.comm hes'
      show (coms E s.adv.done.reverse).Perm ((s.adv.storage ++ [_]).map _ ++ _)
      rw [hdone, List.map_append]
      rw [hsp, astComments_append, astComments_one g3] at this
      rw [astComments_append, astComments_one b3]
      refine (this.append_right [c]).trans ?_
      have e : s.adv.storage.map (·.comment) = s.coms := hco
      rw [e]
      simp only [List.append_assoc, List.map_cons, List.map_nil, List.append_nil]
      refine List.Perm.append_left _ ?_
      rw [← List.append_assoc]
      exact List.perm_append_comm
    · intro d hd
      have := (hI.run d hd).upto hN.seg.prefix
      unfold rootPlaces at this ⊢
      rw [places_last (l := []) g2 (by rw [b4, List.append_nil]), List.append_nil]
      exact this
  · rename_i hreq
    have hline := posOf_line_mono (x := pre) (y := pre ++ g) (List.prefix_append _ _)
    have hline2 := posOf_line_mono (x := pre ++ g) (y := pre ++ g ++ y) (List.prefix_append _ _)
    refine Sat.pure (Q := RootPost E toks es0 pre s) ⟨_, _, by simp, h4.toNw, ?_, ?_, ?_, ?_, ?_, ?_, ?_,
      fun _ => .inr ⟨_, _, adv_done h3, by rw [he]; simp⟩⟩
    · intro b hb
      rw [s.adv_storage]
      exact hI.asts b hb
    · intro d hd
      rcases List.mem_append.1 hd with hd | hd
      · exact hI.prevAt d hd
      · rw [List.mem_singleton.1 hd]; exact e3
    · rw [List.pairwise_append]
      refine ⟨hI.sorted, List.pairwise_singleton _ _, ?_⟩
      intro a ha b hb
      rw [List.mem_singleton.1 hb, hcl]
      have := hst a ha
      omega
    · intro d hd
      rcases List.mem_append.1 hd with hd | hd
      · left
        have := hst d hd
        omega
      · rw [List.mem_singleton.1 hd, hcl]
        right
        refine ⟨hline2, ?_⟩
        cases hr : s.adv.rest with
        | nil => exact .inr rfl
        | cons t ts =>
          left
          have hp : pk E s.adv = t := by unfold pk; rw [hr]; rfl
          rw [hp]
          refine hG.com [] s.rest id t rfl ?_ ?_
          · rw [h3]; simp [he]
          · rw [h3, hr]; rfl
    · intro h; exact absurd h hreq
    · intro hes
      have hes' : s.errors = es0 := by rw [← hes]; exact s.adv_errors.symm
      have := hI.comm hes'
      rw [hdone, hco]
      refine (this.append_right [c]).trans ?_
      simp only [List.append_assoc]
      exact List.Perm.refl _
    · intro d hd
      unfold rootPlaces
      rw [List.map_append, ← List.append_assoc]
      refine (hI.run d hd).append (.one' (x := pre ++ g) (y := pre ++ g ++ y) ?_
        (List.prefix_append _ _) (List.prefix_append _ _) (List.prefix_refl _))
      have hnl : '\n' ∉ y := by
        rw [e2]
        have := e3.1
        rw [← hc] at this
        simp only [List.mem_cons, not_or]
        exact ⟨by decide, this⟩
      rw [posOf_plus hnl, ← hc, e2, blen_cons, ← h2.start]
      rfl

theorem rootNewline_post {r : RootSt} (hG : Good E toks es0 pre s) (hI : RootInv E toks es0 pre s r)
    (he : (pk E s).ty = .newline) :
    RootPost E toks es0 pre s { r with newlineRequired := false } s.adv := by
  obtain ⟨g, y, h1, h2, h3, h4⟩ := hG.adv' (by rw [he]; simp)
  rw [coms_of_ne (by rw [he]; simp)] at h4
  have hy := h2.text
  rw [he] at hy
  have hline : (posOf pre).line < (posOf (pre ++ g ++ y)).line := by
    rw [posOf_line_append, posOf_line_append]
    have : 0 < y.count '\n' := by
      apply List.count_pos_iff.2
      rcases hy with rfl | rfl <;> decide
    omega
  refine ⟨_, _, by simp, h4.toNw, ?_, hI.prevAt, hI.sorted, ?_, by simp, fun h => h4.perm hG hI.comm h,
    fun c hc => (hI.run c hc).upto h4.seg.prefix, by simp⟩
  · intro b hb
    rw [s.adv_storage]
    exact hI.asts b hb
  · intro c hc
    left
    rcases hI.below c hc with h | ⟨h, -⟩ <;> omega

/-! ## Assignments -/

theorem looseComments_post {o : Prop} {r : RootSt} {cs : List Comment} {n : Nat}
    (hn : s.storage.length = n) (ha : ∀ a ∈ r.asts, AstAt o E.input n a)
    (hcs : ∀ c ∈ cs, CommentAt E.input c) :
    ∃ asts' level new, (∀ (k : List Ast × Nat → M β), (looseComments r cs >>= k) s =
        k (asts', level) { s with storage := s.storage ++ new }) ∧
      level ≤ 1 ∧ (∀ c ∈ new.map (·.comment), CommentAt E.input c) ∧
      (∀ a ∈ asts', AstAt o E.input (s.storage ++ new).length a) ∧
      (astComments r.asts ++ cs).Perm (new.map (·.comment) ++ astComments asts') ∧
      (cs = [] → (∃ a, r.asts.getLast? = some a ∧ ∀ c, a ≠ .comment c) →
        ∃ a, asts'.getLast? = some a ∧ ∀ c, a ≠ .comment c) ∧
      ∀ c, (asts'.flatMap (astPlaces c)).Sublist (r.asts.flatMap (astPlaces c) ++ cs.map (·.span)) := by
  unfold looseComments
  subst hn
  split
  · rename_i t ht
    have hsp := getLast_split ht
    have hmem : Ast.table t ∈ r.asts := by rw [hsp]; simp
    have hat := ha _ hmem
    cases hat with
    | table h1 h2 h3 h4 h5 =>
      obtain ⟨r', new, b1, b2, b3, b4⟩ := addComments_eq (β := β) (pos := .contained) cs (s := s) h1
      refine ⟨r.asts.dropLast ++ [.table { t with comments := r' }], 1, new, ?_, Nat.le_refl _, ?_, ?_, ?_, ?_, ?_⟩
      · intro k
        have := b4 (fun c => k (r.asts.dropLast ++ [.table { t with comments := c }], 1))
        rw [← this]
        show M.bind (M.bind _ _) _ _ = M.bind _ _ _
        unfold M.bind
        cases addComments t.comments .contained cs s <;> rfl
      · rw [b2]; exact hcs
      · have hl : (s.storage ++ new).length = s.storage.length + cs.length := by
          rw [List.length_append, ← b2]; simp
        intro a hm
        rcases List.mem_append.1 hm with hm | hm
        · exact (ha a (mem_of_dropLast hm)).mono (by rw [hl]; omega)
        · rw [List.mem_singleton.1 hm, hl]
          exact .table b1 h2 h3 h4 (fun a ha => (h5 a ha).mono (by omega))
      · rw [b2]
        refine List.perm_append_comm.trans (List.Perm.append_left _ ?_)
        conv => lhs; rw [hsp]
        rw [astComments_append, astComments_append]
        exact List.Perm.refl _
      · intro _ _
        exact ⟨_, List.getLast?_concat, by simp⟩
      · intro c
        rw [places_last (l := []) ht (by simp [astPlaces]), List.append_nil]
        exact List.sublist_append_left _ _
  · rename_i t ht
    have hsp := getLast_split ht
    have hmem : Ast.array t ∈ r.asts := by rw [hsp]; simp
    have hat := ha _ hmem
    cases hat with
    | array h1 h2 h2' h3 h4 h5 =>
      obtain ⟨r', new, b1, b2, b3, b4⟩ := addComments_eq (β := β) (pos := .contained) cs (s := s) h1
      refine ⟨r.asts.dropLast ++ [.array { t with comments := r' }], 1, new, ?_, Nat.le_refl _, ?_, ?_, ?_, ?_, ?_⟩
      · intro k
        have := b4 (fun c => k (r.asts.dropLast ++ [.array { t with comments := c }], 1))
        rw [← this]
        show M.bind (M.bind _ _) _ _ = M.bind _ _ _
        unfold M.bind
        cases addComments t.comments .contained cs s <;> rfl
      · rw [b2]; exact hcs
      · have hl : (s.storage ++ new).length = s.storage.length + cs.length := by
          rw [List.length_append, ← b2]; simp
        intro a hm
        rcases List.mem_append.1 hm with hm | hm
        · exact (ha a (mem_of_dropLast hm)).mono (by rw [hl]; omega)
        · rw [List.mem_singleton.1 hm, hl]
          exact .array b1 h2 h2' h3 h4 (fun a ha => (h5 a ha).mono (by omega))
      · rw [b2]
        refine List.perm_append_comm.trans (List.Perm.append_left _ ?_)
        conv => lhs; rw [hsp]
        rw [astComments_append, astComments_append]
        exact List.Perm.refl _
      · intro _ _
        exact ⟨_, List.getLast?_concat, by simp⟩
      · intro c
        rw [places_last (l := []) ht (by simp [astPlaces]), List.append_nil]
        exact List.sublist_append_left _ _
  · refine ⟨r.asts ++ cs.map Ast.comment, 0, [], ?_, by omega, by simp, ?_, ?_, ?_, ?_⟩
    · intro k; rw [List.append_nil]; rfl
    · rw [List.append_nil]
      intro a hm
      rcases List.mem_append.1 hm with hm | hm
      · exact ha a hm
      · obtain ⟨c, hc, rfl⟩ := List.mem_map.1 hm
        exact .comment (hcs c hc)
    · simp [astComments_append, astComments_map]
    · rintro rfl h
      simpa using h
    · intro c
      rw [List.flatMap_append, places_comments]
      exact List.Sublist.refl _

theorem pushAssignment_post {o : Prop} {input : Str} {n : Nat} {asts : List Ast} {a : ToplevelAssignment}
    (hasts : ∀ a ∈ asts, AstAt o input n a) (ha : AssignmentAt input n a) :
    (∀ b ∈ pushAssignment asts a, AstAt o input n b) ∧
      astComments (pushAssignment asts a) = astComments asts ∧
      (∃ b, (pushAssignment asts a).getLast? = some b ∧ ∀ c, b ≠ .comment c) ∧
      ∀ c, (pushAssignment asts a).flatMap (astPlaces c) =
        asts.flatMap (astPlaces c) ++ assignmentPlaces a := by
  unfold pushAssignment
  split
  · rename_i t ht
    have hsp := getLast_split ht
    have hmem : Ast.table t ∈ asts := by rw [hsp]; simp
    have hat := hasts _ hmem
    cases hat with
    | table h1 h2 h3 h4 h5 =>
      refine ⟨?_, ?_, ⟨_, List.getLast?_concat, by simp⟩, fun c => places_last ht (by
        simp [astPlaces])⟩
      · intro b hb
        rcases List.mem_append.1 hb with hb | hb
        · exact hasts b (mem_of_dropLast hb)
        · rw [List.mem_singleton.1 hb]
          refine .table h1 h2 h3 h4 ?_
          intro c hc
          rcases List.mem_append.1 hc with hc | hc
          · exact h5 c hc
          · rw [List.mem_singleton.1 hc]; exact ha
      · conv => rhs; rw [hsp]
        rw [astComments_append, astComments_append]
        rfl
  · rename_i t ht
    have hsp := getLast_split ht
    have hmem : Ast.array t ∈ asts := by rw [hsp]; simp
    have hat := hasts _ hmem
    cases hat with
    | array h1 h2 h2' h3 h4 h5 =>
      refine ⟨?_, ?_, ⟨_, List.getLast?_concat, by simp⟩, fun c => places_last ht (by
        simp [astPlaces])⟩
      · intro b hb
        rcases List.mem_append.1 hb with hb | hb
        · exact hasts b (mem_of_dropLast hb)
        · rw [List.mem_singleton.1 hb]
          refine .array h1 h2 h2' h3 h4 ?_
          intro c hc
          rcases List.mem_append.1 hc with hc | hc
          · exact h5 c hc
          · rw [List.mem_singleton.1 hc]; exact ha
      · conv => rhs; rw [hsp]
        rw [astComments_append, astComments_append]
        rfl
  · refine ⟨?_, ?_, ⟨_, List.getLast?_concat, by simp⟩, fun c => by
      rw [List.flatMap_append]; simp [astPlaces]⟩
    · intro b hb
      rcases List.mem_append.1 hb with hb | hb
      · exact hasts b hb
      · rw [List.mem_singleton.1 hb]; exact .assignment ha
    · rw [astComments_append, astComments_one (by simp), List.append_nil]

theorem rootValue_post {r : RootSt} {key : Key} {eq : Pos} (hG : Good E toks es0 pre s)
    (hI : RootInv E toks es0 pre s r)
    (hb : ∀ c ∈ r.prevComments, c.span.start.line < eq.line)
    (hk : KeyAt E.input key) (heq : CharAt E.input eq '=')
    (hrun : ∀ c, (c = true → ¬ SplitPair toks) →
      InOrder [] (rootPlaces c r ++ (keyPlaces key ++ [Span.asciiChar eq])) pre)
    (hlast : s.LastNot) :
    Sat P (rootValue E r key eq s) (fun r' s' => ∃ u p', Nw E toks es0 pre s u p' s' ∧
      RootInv E toks es0 p' s' r') := by
  unfold rootValue
  obtain ⟨n, hn⟩ := findAssociated_eq (β := RootSt) hI.sorted hb
  rw [hn]
  obtain ⟨asts', level, new, a1, a2, a3, a4, a5, a6, a7⟩ := looseComments_post (β := RootSt) (E := E)
    (o := ¬ SplitPair toks) (s := s) (cs := r.prevComments.take n) rfl hI.asts
    (fun c hc => hI.prevAt c (List.mem_of_mem_take hc))
  rw [a1]
  have hN1 := hG.addStor a3
  obtain ⟨rg, new2, b1, b2, b3, b4⟩ := storeComments_eq (β := RootSt) (pos := .above)
    (cs := r.prevComments.drop n) (level := level) (s := { s with storage := s.storage ++ new })
  simp only []
  rw [b4]
  have hnew2 : ∀ c ∈ new2.map (·.comment), CommentAt E.input c := by
    rw [b2]; intro c hc; exact hI.prevAt c (List.mem_of_mem_drop hc)
  have hN2 := hN1.trans (hN1.good.addStor hnew2)
  generalize hs2 : ({ s with storage := s.storage ++ new ++ new2 } : PS) = s2 at hN2
  have hst2 : s2.storage = s.storage ++ new ++ new2 := by rw [← hs2]
  have her2 : s2.errors = s.errors := by rw [← hs2]
  have hdn2 : s2.done = s.done := by rw [← hs2]
  have hrg : RangeIn s2.storage.length rg := by
    have : s2.storage.length = (s.storage ++ new).length + (r.prevComments.drop n).length := by
      rw [hst2, List.length_append, ← b2, List.length_map]
    rw [this]; exact b1
  have hasts2 : ∀ a ∈ asts', AstAt (¬ SplitPair toks) E.input s2.storage.length a := by
    intro a ha
    refine (a4 a ha).mono ?_
    rw [hst2]; simp
  have hperm2 : s2.errors = es0 → (coms E s2.done.reverse).Perm
      (s2.coms ++ (astComments asts' ++ [])) := by
    intro he
    rw [her2] at he
    rw [hdn2]
    refine (hI.comm he).trans ?_
    have e2 : s2.coms = s.coms ++ (new.map (·.comment) ++ r.prevComments.drop n) := by
      unfold PS.coms
      rw [hst2, List.map_append, List.map_append, b2, List.append_assoc]
    rw [e2, List.append_assoc, List.append_nil]
    refine List.Perm.append_left _ ?_
    have h1 : (astComments r.asts ++ r.prevComments).Perm
        (new.map (·.comment) ++ astComments asts' ++ r.prevComments.drop n) := by
      have := a5.append_right (r.prevComments.drop n)
      rw [List.append_assoc, List.take_append_drop] at this
      exact this
    refine h1.trans ?_
    rw [List.append_assoc, List.append_assoc]
    exact List.Perm.append_left _ List.perm_append_comm
  have hopen : level + openToks s2.rest ≤ openToks toks + 1 := by
    have := congrArg openToks hN2.good.all
    rw [openToks_append] at this
    omega
  refine Sat.bind (parseValue_post (RECURSION_LIMIT + 2) level (by omega) (by omega) hN2.good hopen) ?_
  rintro res s3 hr
  cases res with
  | ok val =>
    obtain ⟨u3, q3, c1, c2, c3, cL, -⟩ := hr
    simp only []
    rw [bind_nextId]
    have hs : rg.start ≤ s3.storage.length := by
      have := c1.stor; unfold RangeIn at hrg; omega
    rw [bind_lift _ _ (extendTo_eq hs)]
    have hat : AssignmentAt E.input s3.storage.length
        ⟨⟨rg.start, s3.storage.length - rg.start, rg.level⟩, key, eq, val⟩ :=
      ⟨by unfold RangeIn; simp only; omega, hk, heq, c2.val⟩
    obtain ⟨d1, d2, d3, d4⟩ := pushAssignment_post
      (fun a ha => (hasts2 a ha).mono c1.stor) hat
    refine Sat.pure ⟨_, _, hN2.trans c1.toNw, d1, by simp, .nil, by simp, fun _ => ⟨rfl, d3⟩, ?_, ?_,
      fun _ => cL⟩
    · intro he
      have := c1.perm hN2.good hperm2 he
      rw [d2]
      exact this
    · intro c hc
      obtain ⟨-, va, vb, v1, v2, v3, -⟩ := c2
      have h1 := ((hrun c hc).append (v2.from_ v1)).upto v3
      unfold rootPlaces at h1 ⊢
      rw [d4, List.map_nil, List.append_nil]
      refine h1.sublist ?_
      simp only [assignmentPlaces, List.append_assoc]
      rw [← List.append_assoc (List.flatMap _ r.asts)]
      exact List.Sublist.append_right (((a7 c).trans (List.Sublist.append_left
        ((List.take_sublist _ _).map _) _))) _
  | error e =>
    obtain ⟨u3, q3, c1, c2, cL⟩ := hr
    simp only []
    rw [bind_error]
    have g := c1.good.err (h := []) c2
    refine Sat.bind (recoverOn_post rfl g.good) ?_
    rintro _ s4 ⟨u4, q4, d1, d2, d3, d4, d5⟩
    have hN4 := c1.err_then (h := []) c2 d1
    have hne : s4.errors ≠ es0 := by
      intro hh
      obtain ⟨new', n1, -⟩ := c1.good.errs
      rw [d2] at hh
      have := congrArg List.length hh
      simp [PS.err, n1] at this
    refine Sat.pure ⟨_, _, hN2.trans hN4.toNw, ?_, by simp, .nil, by simp, ?_, fun h => absurd h hne, ?_,
      fun _ => ?_⟩
    rotate_right
    · rcases cL with cL | ⟨cL, -⟩
      · have hr4 := d1.rest
        rw [show (s3.err e).rest = s3.rest from rfl, cL] at hr4
        exact .inl (List.append_eq_nil_iff.1 hr4.symm).2
      · refine .inr ((hN2.trans hN4.toNw).lastNot hG hlast fun t ht => ?_)
        simp only [List.nil_append, List.append_nil, List.mem_append] at ht
        rcases ht with ht | ht
        · exact cL t ht
        · exact d5 t ht
    · intro a ha
      exact (hasts2 a ha).mono hN4.stor
    · intro hreq
      obtain ⟨r1, r2⟩ := hI.req hreq
      exact ⟨rfl, a6 (by rw [r1]; simp) r2⟩
    · intro c hc
      have h1 := (hI.run c hc).upto hN4.seg.prefix
      unfold rootPlaces at h1 ⊢
      rw [List.map_nil, List.append_nil]
      exact h1.sublist ((a7 c).trans (List.Sublist.append_left ((List.take_sublist _ _).map _) _))

theorem rootEq_post {r : RootSt} {key : Key} (hG : Good E toks es0 pre s0)
    (hI : RootInv E toks es0 pre s0 r)
    (hst : ∀ c ∈ r.prevComments, c.span.start.line < (posOf pre).line)
    (hN : Nx E toks es0 pre s0 u p s []) (hu : u ≠ []) (hk : KeyAt E.input key)
    (hkr : InOrder pre (keyPlaces key) p) (hul : ∀ t ∈ u, endsLine t.ty = false)
    (hlast : r.newlineRequired = true → s0.LastNot) (hlk : s.LastKey) (hnd : (pk E s).ty ≠ .dot) :
    Sat P (rootEq E (pk E s0) s0.errors.length r key s) (RootPost E toks es0 pre s0) := by
  unfold rootEq
  rw [bind_peek]
  generalize he : (pk E s).ty = ty
  split
  · rename_i hc
    rw [bind_next]
    obtain ⟨x, y, e1, e2, e3, e4⟩ := hN.good.char (by rw [he, hc]; simp) (by rw [he, hc]; simp)
    have hy := e2.text
    rw [he, hc] at hy
    simp only at hy
    subst hy
    have hch := e2.charAt rfl e3.good.chain.prefix
    have hN1 := hN.trans e3
    have hul1 : ∀ t ∈ u ++ [pk E s], endsLine t.ty = false := by
      intro t ht
      rcases List.mem_append.1 ht with ht | ht
      · exact hul t ht
      · rw [List.mem_singleton.1 ht, he, hc]; rfl
    refine Sat.bind (checkNewline_post hG hN1.toNw (by simp) hul1 hlast) ?_
    rintro b s4 hb4
    cases b with
    | true =>
      rw [if_pos rfl] at hb4
      obtain ⟨d1, d2, d3, d4⟩ := hb4
      rw [if_pos rfl]
      have hND := hN1.trans d1
      have hln : s4.LastNot := hND.toNw.lastNot_of hG (by simp) (by rw [List.append_nil]; exact hul1)
      refine (rootValue_post hND.good (hI.keep hG hst hND hln) ?_ hk hch
        (fun c hc => (hI.run c hc).append (hkr.append (.char (by decide) (by decide) e2.start e1
          (List.prefix_refl _)))) hln).mono ?_
      · intro c hc'
        rw [e2.start]
        exact Nat.lt_of_lt_of_le (hst c hc') (posOf_line_mono (hN.seg.prefix.trans e1))
      · rintro r' s5 ⟨u5, q5, f1, f2⟩
        exact ⟨_, _, by simp [hu], hND.toNw.trans f1, f2⟩
    | false =>
      rw [if_neg (by simp)] at hb4
      obtain ⟨d0, v, p', d1, d2, d3⟩ := hb4
      rw [if_neg (by simp)]
      exact Sat.pure (Q := RootPost E toks es0 pre s0) ⟨_, _, by simp, d1,
        hI.bad hst d1 d2 (d1.lastNot_of hG (by simp) d3)⟩
  · rename_i hne
    obtain ⟨f, sp, f1, ⟨ov, ⟨k1, k2, -⟩, k3⟩, f2⟩ := hN.good.fmt (β := RootSt)
    have hloc : Loc E toks (.expectedEqOrDotFound f sp) :=
      ⟨f1, trivial, hN.good.eqOrDot k1 k2 k3 hlk (by rw [he]; exact hne) hnd⟩
    refine Sat.bind (recoverOn_post rfl hN.good) ?_
    rintro _ s4 ⟨u4, q4, d1, d2, d3, d4, d5⟩
    have hul1 : ∀ t ∈ u ++ u4, endsLine t.ty = false := by
      intro t ht
      rcases List.mem_append.1 ht with ht | ht
      · exact hul t ht
      · exact d5 t ht
    split
    · rename_i hreq
      refine Sat.bind (expectedNewline_post hG (hN.toNw.trans d1) (by simp [hu]) (hlast hreq) hul1 (.inl d4)) ?_
      rintro _ s5 ⟨c1, c2, c3, c4⟩
      exact Sat.pure (Q := RootPost E toks es0 pre s0) ⟨_, _, by simp [hu], c1,
        hI.bad hst c1 c2 (c1.lastNot_of hG (by simp [hu]) hul1)⟩
    · rw [f2]
      simp only []
      rw [bind_error]
      have g := (hN.toNw.trans d1).err_then (h := []) (v := []) (e := .expectedEqOrDotFound f sp)
        hloc (Nx.refl (d1.good.err (e := .expectedEqOrDotFound f sp) (h := []) hloc).good).toNw
      refine Sat.pure (Q := RootPost E toks es0 pre s0) ⟨_, _, by simp [hu], g.toNw,
        hI.keep hG hst g (g.toNw.lastNot_of hG (by simp [hu]) (by rw [List.append_nil]; exact hul1))⟩

theorem rootAssignment_post {r : RootSt} (hG : Good E toks es0 pre s) (hI : RootInv E toks es0 pre s r)
    (he : endsLine (pk E s).ty = false) :
    Sat P (rootAssignment E (pk E s) r s) (RootPost E toks es0 pre s) := by
  have hne : s.rest ≠ [] := by
    intro h; rw [hG.pk_eof h, hG.eofTy] at he; cases he
  have hst := hI.start (by intro h; rw [h] at he; cases he) hne
  unfold rootAssignment
  rw [bind_mark]
  refine Sat.bind (parseKey_post hG) ?_
  rintro res s1 ⟨u1, q1, a1, a2, a3, a4, a5⟩
  have hlast : r.newlineRequired = true → s.LastNot := fun h => by
    rcases hI.line h with h | h
    · exact absurd h hne
    · exact h
  split
  · exact rootEq_post hG hI hst a1 (a4 trivial).1 a3.1 a3.2 a2 hlast (a4 trivial).2 (a5 _ rfl)
  · split
    · rename_i hreq
      refine Sat.bind (expectedNewline_post hG a1.toNw (a4 trivial).1 (hlast hreq) a2 (.inr (a4 trivial).2)) ?_
      rintro _ s5 ⟨c1, c2, c3, c4⟩
      exact Sat.pure (Q := RootPost E toks es0 pre s) ⟨_, _, (a4 trivial).1, c1,
        hI.bad hst c1 c2 (c1.lastNot_of hG (a4 trivial).1 a2)⟩
    · exact Sat.pure (Q := RootPost E toks es0 pre s) ⟨_, _, (a4 trivial).1, a1.toNw,
        hI.keep hG hst a1 (a4 trivial).2.lastNot⟩
  · rename_i e
    refine Sat.bind (recoverOn_post rfl a1.good) ?_
    rintro _ s4 ⟨u4, q4, d1, d2, d3, d4, d5⟩
    have hu : u1 ++ u4 ≠ [] := by
      intro hh
      have hr := (a1.toNw.trans d1).rest
      rw [hh] at hr
      have : pk E s4 = pk E s := by unfold pk; rw [hr]; rfl
      rw [this, he] at d4
      cases d4
    have hul1 : ∀ t ∈ u1 ++ u4, endsLine t.ty = false := by
      intro t ht
      rcases List.mem_append.1 ht with ht | ht
      · exact a2 t ht
      · exact d5 t ht
    split
    · rename_i hreq
      refine Sat.bind (expectedNewline_post hG (a1.toNw.trans d1) hu (hlast hreq) hul1 (.inl d4)) ?_
      rintro _ s5 ⟨c1, c2, c3, c4⟩
      exact Sat.pure (Q := RootPost E toks es0 pre s) ⟨_, _, hu, c1,
        hI.bad hst c1 c2 (c1.lastNot_of hG hu hul1)⟩
    · rw [bind_error]
      have g := (a1.toNw.trans d1).err_then (h := []) (v := []) a3
        (Nx.refl (d1.good.err (h := []) a3).good).toNw
      rw [List.append_nil] at g
      exact Sat.pure (Q := RootPost E toks es0 pre s) ⟨_, _, hu, g.toNw,
        hI.keep hG hst g (g.toNw.lastNot_of hG hu hul1)⟩

/-! ## The loop -/

theorem rootLoop_post : ∀ (n : Nat) {pre : Str} {s : PS} {r : RootSt}, Good E toks es0 pre s →
    RootInv E toks es0 pre s r → s.rest.length < n →
    Sat (SplitBack E.ovf toks) (rootLoop E n r s) (fun r' s' => ∃ u p', Nw E toks es0 pre s u p' s' ∧
      RootInv E toks es0 p' s' r' ∧ s'.rest = []) := by
  intro n
  induction n with
  | zero => intro pre s r _ _ hn; omega
  | succ n ih =>
    intro pre s r hG hI hn
    have hstep : ∀ {x : M RootSt}, Sat (SplitBack E.ovf toks) (x s) (RootPost E toks es0 pre s) →
        Sat (SplitBack E.ovf toks) ((x >>= fun r => rootLoop E n r) s) (fun r' s' => ∃ u p',
          Nw E toks es0 pre s u p' s' ∧ RootInv E toks es0 p' s' r' ∧ s'.rest = []) := by
      intro x hx
      refine Sat.bind hx ?_
      rintro r1 s1 ⟨u, p1, h1, h2, h3⟩
      have hl := h2.len
      have : 0 < u.length := List.length_pos_iff.2 h1
      refine (ih h2.good h3 (by omega)).mono ?_
      rintro r2 s2 ⟨v, p2, g1, g2, g3⟩
      exact ⟨_, _, h2.trans g1, g2, g3⟩
    unfold rootLoop
    rw [bind_peek]
    generalize he : (pk E s).ty = ty
    split
    · exact hstep (rootHeader_post hG hI he)
    · exact hstep (rootComment_post hG hI he)
    · rw [bind_next]
      obtain ⟨u, p1, h1, h2, h3⟩ := rootNewline_post hG hI he
      have hl := h2.len
      have : 0 < u.length := List.length_pos_iff.2 h1
      refine (ih h2.good h3 (by omega)).mono ?_
      rintro r2 s2 ⟨v, p2, g1, g2, g3⟩
      exact ⟨_, _, h2.trans g1, g2, g3⟩
    · refine Sat.pure ⟨[], pre, (Nx.refl hG).toNw, hI, ?_⟩
      cases hr : s.rest with
      | nil => rfl
      | cons t ts =>
        obtain ⟨g, y, h1, h2, h3, h4⟩ := hG.adv hr
        have ht := h2.text
        rw [← h3, he] at ht
        exact ht.elim
    · rename_i n1 n2 n3 n4
      refine hstep (rootAssignment_post hG hI ?_)
      rw [he]
      cases ty <;> simp_all [endsLine]

end Verif.Toml
