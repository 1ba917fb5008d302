import Verif.Toml.LexLoop
import Verif.Toml.TokInv

/-! # Lemmas: the main loop of the tokenizer -/

namespace Verif.Toml
open Verif Verif.Spec.Toml

/-! ## The invariant -/

/-- A string token with its parts: opening, contents, closing. -/
def StrTok (input : Str) (strings : List StringToken) (tok : Token) : Prop :=
  ∀ id, tok.ty = .string id → ∃ pre0 q o t d r txt,
    input = pre0 ++ (o ++ t ++ d) ++ r ∧ tok.start = posOf pre0 ∧
    strings[id]? = some ⟨q, o ++ t ++ d, posOf (pre0 ++ (o ++ t ++ d)), txt, offOf o d⟩ ∧
    Opening q o ∧ (∀ c ∈ d, c = quoteChar q) ∧ (isMulti q = false → '\n' ∉ o ++ t ++ d) ∧
    (isMulti q = false → d.length ≤ 1 ∧ ('\\' ∉ t → txt = t))

/-- Behind a comment there is a line break or the end of the text. -/
def CommentSeq (vs : List (View × Pos)) : Prop :=
  ∀ a b txt p v, vs = a ++ (.comment txt, p) :: v :: b → v.1 = .newline

/-- `CommentSeq`, and `rest` is empty if the last token is a comment. -/
def Com (vs : List (View × Pos)) (rest : Str) : Prop :=
  CommentSeq vs ∧ ∀ txt p, vs.getLast? = some (.comment txt, p) → rest = []

theorem Com.nil {rest : Str} : Com [] rest :=
  ⟨fun a b txt p v h => by simp at h, fun txt p h => by simp at h⟩

theorem Com.any {vs : List (View × Pos)} {r r' : Str} (h : Com vs r) (hr : r ≠ []) : Com vs r' :=
  ⟨h.1, fun txt p hh => absurd (h.2 txt p hh) hr⟩

theorem Com.snoc {vs : List (View × Pos)} {r r' : Str} {v : View × Pos} (h : Com vs r)
    (hr : r ≠ [] ∨ v.1 = .newline) (hv : ∀ txt, v.1 = .comment txt → r' = []) :
    Com (vs ++ [v]) r' := by
  refine ⟨fun a b txt p v' e => ?_, fun txt p hh => ?_⟩
  · induction b using snocRec with
    | nil =>
      have e' : vs ++ [v] = (a ++ [(.comment txt, p)]) ++ [v'] := by rw [e]; simp
      have e1 := List.append_inj_left' e' rfl
      have e2 := List.append_inj_right' e' rfl
      simp only [List.cons.injEq, and_true] at e2
      rcases hr with hr | hr
      · exact absurd (h.2 txt p (by rw [e1]; simp)) hr
      · rw [← e2]; exact hr
    | append_singleton b x _ =>
      have e' : vs ++ [v] = (a ++ (.comment txt, p) :: v' :: b) ++ [x] := by rw [e]; simp
      exact h.1 a b txt p v' (List.append_inj_left' e' rfl)
  · rw [List.getLast?_append, List.getLast?_singleton, Option.some_or] at hh
    simp only [Option.some.injEq] at hh
    exact hv txt (by rw [hh])

/-- `pre` has been turned into the tokens `vs`, `w` is the pending word, `rest` is left. -/
structure Main (L : Lexer) (pre w rest : Str) (vs : List (View × Pos)) : Prop where
  st : St L (pre ++ w) rest
  toks : L.tokens.map (resolve L.strings L.literals) = vs.map some
  laid : Laid pre vs
  lit : (L.inLit = true ∧ w ≠ [] ∧ L.litByteStart = blen pre ∧ L.litStart = posOf pre) ∨
    (L.inLit = false ∧ w = [])
  word : ∀ a c b, w = a ++ c :: b → startsWord (c :: (b ++ rest)) = true
  strs : ∀ tok ∈ L.tokens, StrTok L.input L.strings tok
  com : Com vs (w ++ rest)
  ended : L.errors = [] → ∀ st ∈ L.strings, st.textOffset.endChar ≠ 0

/-- Where a diagnostic of the tokenizer points to. -/
def Located (input : Str) (e : Error) : Prop :=
  LexTold input e ∨
    ∃ c x d z, e = .invalidCommentChar c (Span.asciiChar (posOf x)) ∧ d ≠ '\n' ∧
      input = x ++ d :: c :: z ∧ isControl c = true ∧ c ≠ '\t' ∧ c ≠ '\n' ∧
      ¬ (c = '\r' ∧ z.head? = some '\n') ∧ InComment (x ++ [d])

/-- The string of the token has been closed. -/
def Closed (strings : List StringToken) (t : Token) : Prop :=
  ∀ id, t.ty = .string id → ∃ st, strings[id]? = some st ∧ st.textOffset.endChar ≠ 0

/-- The tokens `T` have been pushed; their strings have been closed, unless there is a diagnostic in `es`. -/
structure Grown (L L' : Lexer) (es : List Error) (T : List Token) : Prop where
  tokens : L'.tokens = L.tokens ++ T
  strings : L.strings <+: L'.strings
  closed : es = [] → ∀ t ∈ T, Closed L'.strings t

theorem Closed.mono {S S' : List StringToken} {t : Token} (h : Closed S t) (hp : S <+: S') : Closed S' t := by
  intro id hid
  obtain ⟨st, h1, h2⟩ := h id hid
  obtain ⟨z, rfl⟩ := hp
  refine ⟨st, ?_, h2⟩
  rw [List.getElem?_append_left (List.getElem?_eq_some_iff.1 h1).1]
  exact h1

theorem Closed.of_ne {S : List StringToken} {t : Token} (h : ∀ id, t.ty ≠ .string id) : Closed S t :=
  fun id hid => absurd hid (h id)

theorem Grown.same {L L' : Lexer} {es : List Error} (h1 : L'.tokens = L.tokens) (h2 : L'.strings = L.strings) :
    Grown L L' es [] := ⟨by rw [h1]; simp, by rw [h2]; exact List.prefix_refl _, by simp⟩

theorem Grown.trans {L L1 L2 : Lexer} {es1 es2 : List Error} {T1 T2 : List Token} (h1 : Grown L L1 es1 T1)
    (h2 : Grown L1 L2 es2 T2) : Grown L L2 (es1 ++ es2) (T1 ++ T2) := by
  refine ⟨by rw [h2.tokens, h1.tokens, List.append_assoc], h1.strings.trans h2.strings, fun he t ht => ?_⟩
  rw [List.append_eq_nil_iff] at he
  rcases List.mem_append.1 ht with ht | ht
  · exact (h1.closed he.1 t ht).mono h2.strings
  · exact h2.closed he.2 t ht

/-- What a part of the tokenizer does. -/
def Step (L : Lexer) (pre w src : Str) (vs : List (View × Pos)) (L' : Lexer) (pre' w' rest' : Str)
    (vs' : List (View × Pos)) : Prop :=
  ∃ es T, L'.errors = L.errors ++ es ∧ (∀ e ∈ es, Located L.input e) ∧ L'.input = L.input ∧
    Grown L L' es T ∧ Main L' pre' w' rest' (vs ++ vs') ∧
    ((es = [] ∧ ∀ R, Stop R src → ∀ ts, TokTo R pre (w ++ src) ts ↔
        ∃ t, ts = vs' ++ t ∧ TokTo R pre' (w' ++ rest') t) ∨
      (es ≠ [] ∧ ∀ R, Stop R src → ∀ ts, ¬ TokTo R pre (w ++ src) ts))

theorem Step.trans {L L1 L2 : Lexer} {pre w src pre1 w1 pre2 w2 src2 : Str}
    {vs vs1 vs2 : List (View × Pos)} (h1 : Step L pre w src vs L1 pre1 w1 src vs1)
    (h2 : Step L1 pre1 w1 src (vs ++ vs1) L2 pre2 w2 src2 vs2) :
    Step L pre w src vs L2 pre2 w2 src2 (vs1 ++ vs2) := by
  obtain ⟨es1, T1, a1, a2, a3, a6, a4, a5⟩ := h1
  obtain ⟨es2, T2, b1, b2, b3, b6, b4, b5⟩ := h2
  refine ⟨es1 ++ es2, T1 ++ T2, by rw [b1, a1, List.append_assoc], ?_, b3.trans a3, a6.trans b6,
    by rw [← List.append_assoc]; exact b4, ?_⟩
  · intro e he
    rcases List.mem_append.1 he with h | h
    · exact a2 e h
    · rw [← a3]; exact b2 e h
  · rcases a5 with ⟨rfl, a5⟩ | ⟨hne, a5⟩
    · rcases b5 with ⟨rfl, b5⟩ | ⟨hne, b5⟩
      · left
        refine ⟨rfl, fun R hR ts => ?_⟩
        rw [a5 R hR]
        constructor
        · rintro ⟨t, rfl, ht⟩
          obtain ⟨t', rfl, ht'⟩ := (b5 R hR _).1 ht
          exact ⟨t', by simp, ht'⟩
        · rintro ⟨t, rfl, ht⟩
          exact ⟨vs2 ++ t, by simp, (b5 R hR _).2 ⟨t, rfl, ht⟩⟩
      · right
        refine ⟨by simpa using hne, fun R hR ts h => ?_⟩
        obtain ⟨t, -, ht⟩ := (a5 R hR _).1 h
        exact b5 R hR _ ht
    · exact .inr ⟨by simp [hne], a5⟩

/-- What the tokenizer does up to the end. -/
def Steps (L : Lexer) (pre w src : Str) (vs : List (View × Pos)) (L' : Lexer) (pre' w' rest' : Str)
    (vs' : List (View × Pos)) : Prop :=
  ∃ es, L'.errors = L.errors ++ es ∧ (∀ e ∈ es, Located L.input e) ∧ L'.input = L.input ∧
    Main L' pre' w' rest' (vs ++ vs') ∧
    ((es = [] ∧ ∀ ts, TokTo [] pre (w ++ src) ts ↔
        ∃ t, ts = vs' ++ t ∧ TokTo [] pre' (w' ++ rest') t) ∨
      (es ≠ [] ∧ ∀ ts, ¬ TokTo [] pre (w ++ src) ts))

theorem Step.steps {L L' : Lexer} {pre w src pre' w' rest' : Str} {vs vs' : List (View × Pos)}
    (h : Step L pre w src vs L' pre' w' rest' vs') : Steps L pre w src vs L' pre' w' rest' vs' := by
  obtain ⟨es, T, a1, a2, a3, -, a4, a5⟩ := h
  refine ⟨es, a1, a2, a3, a4, ?_⟩
  rcases a5 with ⟨h1, h2⟩ | ⟨h1, h2⟩
  · exact .inl ⟨h1, h2 [] (.inl rfl)⟩
  · exact .inr ⟨h1, h2 [] (.inl rfl)⟩

theorem Steps.trans {L L1 L2 : Lexer} {pre w src pre1 w1 src1 pre2 w2 src2 : Str}
    {vs vs1 vs2 : List (View × Pos)} (h1 : Steps L pre w src vs L1 pre1 w1 src1 vs1)
    (h2 : Steps L1 pre1 w1 src1 (vs ++ vs1) L2 pre2 w2 src2 vs2) :
    Steps L pre w src vs L2 pre2 w2 src2 (vs1 ++ vs2) := by
  obtain ⟨es1, a1, a2, a3, a4, a5⟩ := h1
  obtain ⟨es2, b1, b2, b3, b4, b5⟩ := h2
  refine ⟨es1 ++ es2, by rw [b1, a1, List.append_assoc], ?_, b3.trans a3,
    by rw [← List.append_assoc]; exact b4, ?_⟩
  · intro e he
    rcases List.mem_append.1 he with h | h
    · exact a2 e h
    · rw [← a3]; exact b2 e h
  · rcases a5 with ⟨rfl, a5⟩ | ⟨hne, a5⟩
    · rcases b5 with ⟨rfl, b5⟩ | ⟨hne, b5⟩
      · left
        refine ⟨rfl, fun ts => ?_⟩
        rw [a5]
        constructor
        · rintro ⟨t, rfl, ht⟩
          obtain ⟨t', rfl, ht'⟩ := (b5 _).1 ht
          exact ⟨t', by simp, ht'⟩
        · rintro ⟨t, rfl, ht⟩
          exact ⟨vs2 ++ t, by simp, (b5 _).2 ⟨t, rfl, ht⟩⟩
      · right
        refine ⟨by simpa using hne, fun ts h => ?_⟩
        obtain ⟨t, -, ht⟩ := (a5 _).1 h
        exact b5 _ ht
    · exact .inr ⟨by simp [hne], a5⟩

theorem map_resolve_mono {S S' : List StringToken} {I I' : List Str} :
    ∀ {ts : List Token} {vs : List (View × Pos)}, ts.map (resolve S I) = vs.map some →
      ts.map (resolve (S ++ S') (I ++ I')) = vs.map some := by
  intro ts
  induction ts with
  | nil => intro vs h; simpa using h
  | cons t ts ih =>
    intro vs h
    cases vs with
    | nil => simp at h
    | cons v vs =>
      simp only [List.map_cons, List.cons.injEq] at h ⊢
      exact ⟨resolve_mono h.1, ih h.2⟩

theorem StrTok.mono {input : Str} {S S' : List StringToken} {tok : Token} (h : StrTok input S tok) :
    StrTok input (S ++ S') tok := by
  intro id hid
  obtain ⟨pre0, q, o, t, d, r, txt, h1, h2, h3, h4⟩ := h id hid
  refine ⟨pre0, q, o, t, d, r, txt, h1, h2, ?_, h4⟩
  rw [List.getElem?_append_left (List.getElem?_eq_some_iff.1 h3).1]
  exact h3

/-- Pushing tokens. -/
theorem Main.push {L L' : Lexer} {pre w src pre' rest : Str} {vs vs' : List (View × Pos)}
    {S : List StringToken} {I : List Str} {T : List Token} (h : Main L pre w src vs)
    (hin : L'.input = L.input) (hst : St L' pre' rest) (hlit : L'.inLit = false)
    (hstrs : L'.strings = L.strings ++ S)
    (hlits : L'.literals = L.literals ++ I) (htoks : L'.tokens = L.tokens ++ T)
    (hT : T.map (resolve L'.strings L'.literals) = vs'.map some) (hlaid : Laid pre' (vs ++ vs'))
    (hS : ∀ tok ∈ T, StrTok L'.input L'.strings tok) (hcom : Com (vs ++ vs') rest)
    (hE : L'.errors = [] → L.errors = [] ∧ ∀ st ∈ S, st.textOffset.endChar ≠ 0) :
    Main L' pre' [] rest (vs ++ vs') := by
  refine ⟨by simpa using hst, ?_, hlaid, .inr ⟨hlit, rfl⟩, by simp, ?_, hcom, ?_⟩
  · rw [htoks, List.map_append, List.map_append, hT, hstrs, hlits, map_resolve_mono h.toks]
  · intro tok htok
    rw [htoks] at htok
    rcases List.mem_append.1 htok with h1 | h1
    · rw [hin, hstrs]; exact (h.strs tok h1).mono
    · exact hS tok h1
  · intro he st hst
    obtain ⟨h1, h2⟩ := hE he
    rw [hstrs] at hst
    rcases List.mem_append.1 hst with h3 | h3
    · exact h.ended h1 st h3
    · exact h2 st h3

theorem StrTok.of_ne {input : Str} {S : List StringToken} {tok : Token}
    (h : ∀ id, tok.ty ≠ .string id) : StrTok input S tok := fun id hid => absurd hid (h id)

/-! ## Words -/

theorem endLiteral_step {L : Lexer} {pre w rest : Str} {vs : List (View × Pos)}
    (h : Main L pre w rest vs) (hb : L.bytePos = blen (pre ++ w)) (hs : startsWord rest = false) :
    ∃ L1 vs1, endLiteral L = some L1 ∧ L1.bytePos = L.bytePos ∧ L1.inLit = false ∧
      Step L pre w rest vs L1 (pre ++ w) [] rest vs1 := by
  unfold endLiteral
  rcases h.lit with ⟨h1, h2, h3, h4⟩ | ⟨h1, h2⟩
  · rw [if_pos h1]
    have hsl : slice L.input L.litByteStart L.bytePos = some w :=
      slice_of (x := pre) (z := rest) h.st.input h3 hb
    rw [hsl]
    refine ⟨_, [(.word w, posOf pre)], rfl, rfl, rfl, [], [⟨.literalOrIdent L.literals.length, L.litStart⟩],
      by simp [Lexer.storeLiteral, Lexer.push], by simp, rfl,
      ⟨by simp [Lexer.storeLiteral, Lexer.push], List.prefix_refl _, fun _ t ht => ?_⟩, ?_,
      .inl ⟨rfl, fun R hR ts => ?_⟩⟩
    · rw [List.mem_singleton.1 ht]; exact .of_ne (by simp)
    · refine h.push (S := []) (I := [w]) (T := [⟨.literalOrIdent L.literals.length, L.litStart⟩]) rfl
        (h.st.congr rfl rfl rfl) rfl (by simp [Lexer.storeLiteral, Lexer.push])
        (by simp [Lexer.storeLiteral, Lexer.push]) (by simp [Lexer.storeLiteral, Lexer.push]) ?_ ?_ ?_
        (h.com.snoc (.inl (by simp [h2])) (by simp)) (fun he => ⟨he, by simp⟩)
      · simp [resolve, Lexer.storeLiteral, Lexer.push, h4]
      · refine .token h.laid (.word h2 ?_)
        intro c hc
        obtain ⟨a, b, rfl⟩ := List.append_of_mem hc
        have := startsWord_of (h.word a c b rfl)
        exact ⟨this.2.1, this.2.2.1, this.2.2.2.1, this.2.2.2.2.1, this.2.2.2.2.2.1,
          this.2.2.2.2.2.2.1, this.1⟩
      · intro tok htok
        rw [List.mem_singleton] at htok
        subst htok
        exact .of_ne (by simp)
    · rw [tok_word h2 h.word hs (hR.len_app h2)]
      simp
  · subst h2
    rw [if_neg (by rw [h1]; simp)]
    refine ⟨L, [], rfl, rfl, h1, [], [], by simp, by simp, rfl, .same rfl rfl, ?_, .inl ⟨rfl, fun R _ ts => by simp⟩⟩
    simpa using h

/-- Pushing one token without text in the tables. -/
theorem push_step {L L' : Lexer} {pre src t rest : Str} {vs : List (View × Pos)} {v : View}
    {ty : TokenType} (h : Main L pre [] src vs) (hsrc : src = t ++ rest)
    (herr : L'.errors = L.errors) (hin : L'.input = L.input) (hst : St L' (pre ++ t) rest)
    (hlit : L'.inLit = false) (hstrs : L'.strings = L.strings) (hlits : L'.literals = L.literals)
    (htoks : L'.tokens = L.tokens ++ [⟨ty, posOf pre⟩])
    (hty : ∀ id, ty ≠ .string id)
    (hres : resolve L'.strings L'.literals ⟨ty, posOf pre⟩ = some (v, posOf pre))
    (hcov : Covers v t) (hv : ∀ txt, v ≠ .comment txt) (hsrc0 : src ≠ [])
    (htok : ∀ R, Stop R src → ∀ ts, TokTo R pre src ts ↔
      ∃ t', ts = (v, posOf pre) :: t' ∧ TokTo R (pre ++ t) rest t') :
    Step L pre [] src vs L' (pre ++ t) [] rest [(v, posOf pre)] := by
  refine ⟨[], [⟨ty, posOf pre⟩], by simpa using herr, by simp, hin,
    ⟨htoks, by rw [hstrs]; exact List.prefix_refl _, fun _ t ht => ?_⟩, ?_, .inl ⟨rfl, fun R hR ts => ?_⟩⟩
  · rw [List.mem_singleton.1 ht]; exact .of_ne hty
  · refine h.push (S := []) (I := []) hin hst hlit (by simpa using hstrs) (by simpa using hlits)
      htoks (by simpa using hres) (.token h.laid hcov) ?_
      (h.com.snoc (.inl (by simpa using hsrc0)) (fun txt hh => absurd hh (hv txt)))
      (fun he => ⟨herr ▸ he, by simp⟩)
    intro tok htok
    rw [List.mem_singleton] at htok
    subst htok
    exact .of_ne hty
  · rw [List.nil_append, htok R hR]
    simp

/-! ## Comments -/

/-- The characters of a comment that raise no diagnostic. -/
def CommentOk (txt r : Str) : Prop :=
  ∀ a c b, txt = a ++ c :: b → Allowed c ∨ (c = '\r' ∧ (b ++ r).head? = some '\n')

theorem CommentOk.cons {c : Char} {txt r : Str} :
    CommentOk (c :: txt) r ↔
      (Allowed c ∨ (c = '\r' ∧ (txt ++ r).head? = some '\n')) ∧ CommentOk txt r := by
  constructor
  · intro h
    exact ⟨h [] c txt rfl, fun a d b e => h (c :: a) d b (by rw [e]; rfl)⟩
  · rintro ⟨h1, h2⟩ a d b e
    cases a with
    | nil => simp only [List.nil_append, List.cons.injEq] at e; obtain ⟨rfl, rfl⟩ := e; exact h1
    | cons x a =>
      simp only [List.cons_append, List.cons.injEq] at e
      exact h2 a d b e.2

theorem commentLoop_post :
    ∀ (rest : Str) (L : Lexer) (p0 : Str) (d : Char), St L (p0 ++ [d]) rest →
      L.bytePos = blen p0 → d ≠ '\n' → InComment (p0 ++ [d]) →
      ∃ L' txt r es, commentLoop L rest = some (L', r) ∧ rest = txt ++ r ∧ '\n' ∉ txt ∧
        (r = [] ∨ ∃ r', r = '\n' :: r') ∧ St L' (p0 ++ [d] ++ txt) r ∧ SameToks L L' ∧
        L'.errors = L.errors ++ es ∧ (∀ e ∈ es, Located L.input e) ∧ (es = [] ↔ CommentOk txt r) := by
  intro rest
  induction rest with
  | nil =>
    intro L p0 d h hb hd _
    exact ⟨L, [], [], [], rfl, rfl, by simp, .inl rfl, by simpa using h, .refl L, by simp, by simp,
      by simp [CommentOk]⟩
  | cons c cs ih =>
    intro L p0 d h hb hd hic
    have hic' : c ≠ '\n' → InComment (p0 ++ [d] ++ [c]) := by
      intro hc
      obtain ⟨p, b, h1, h2⟩ := hic
      exact ⟨p, b ++ [c], by rw [h1]; simp, by simpa [h2] using hc.symm⟩
    unfold commentLoop
    by_cases hcn : c = '\n'
    · subst hcn
      rw [if_pos rfl]
      exact ⟨L, [], _, [], rfl, rfl, by simp, .inr ⟨_, rfl⟩, by simpa using h, .refl L, by simp,
        by simp, by simp [CommentOk]⟩
    · rw [if_neg hcn]
      have go : (Allowed c ∨ (c = '\r' ∧ cs.head? = some '\n')) →
        ∃ L' txt r es, commentLoop (L.atNext (c :: cs)) cs = some (L', r) ∧ c :: cs = txt ++ r ∧
          '\n' ∉ txt ∧
          (r = [] ∨ ∃ r', r = '\n' :: r') ∧ St L' (p0 ++ [d] ++ txt) r ∧ SameToks L L' ∧
          L'.errors = L.errors ++ es ∧ (∀ e ∈ es, Located L.input e) ∧
          (es = [] ↔ CommentOk txt r) := by
        intro hok
        obtain ⟨L', txt, r, es, e1, e2, e3, e4, e5, e6, e7, e8, e9⟩ :=
          ih (L.atNext (c :: cs)) (p0 ++ [d]) c (h.atNext.step hcn) h.atNext_bytePos hcn (hic' hcn)
        refine ⟨L', c :: txt, r, es, e1, by rw [e2]; rfl, by simp [e3, Ne.symm hcn], e4,
          by simpa using e5, ((SameToks.refl L).atNext _).trans e6, e7, e8, ?_⟩
        rw [CommentOk.cons, ← e2, e9]
        simp [hok]
      by_cases ht : c = '\t'
      · rw [if_pos ht]; exact go (.inl (.inl ht))
      · rw [if_neg ht]
        by_cases hcr : c = '\r' ∧ cs.head? = some '\n'
        · rw [if_pos hcr]; exact go (.inr hcr)
        · rw [if_neg hcr]
          by_cases hct : isControl c = true
          · rw [if_pos hct]
            have hp : L.pos = some (posOf p0) := by
              rw [Lexer.pos, hb]
              exact h.posInLine (y := [d]) rfl (by simpa using hd.symm)
            rw [hp]
            simp only [Option.bind_eq_bind, Option.bind_some]
            generalize he : Error.invalidCommentChar c (Span.asciiChar (posOf p0)) = e
            obtain ⟨L', txt, r, es, e1, e2, e3, e4, e5, e6, e7, e8, e9⟩ :=
              ih ((L.error e).atNext (c :: cs)) (p0 ++ [d]) c
                ((h.congr (L' := (L.error e).atNext (c :: cs)) rfl rfl rfl).step hcn)
                h.atNext_bytePos hcn (hic' hcn)
            refine ⟨L', c :: txt, r, e :: es, e1, by rw [e2]; rfl, by simp [e3, Ne.symm hcn], e4,
              by simpa using e5, (((SameToks.refl L).error e).atNext _).trans e6, ?_, ?_, ?_⟩
            · rw [e7]; simp [Lexer.error, Lexer.atNext]
            · intro e' he'
              rcases List.mem_cons.1 he' with rfl | he'
              · refine .inr ⟨c, p0, d, cs, he.symm, hd, ?_, hct, ht, hcn, hcr, hic⟩
                rw [h.input]; simp
              · exact e8 e' he'
            · rw [CommentOk.cons]
              simp only [reduceCtorEq, false_iff, not_and]
              intro hh
              exfalso
              rcases hh with hh | hh
              · exact (isControl_iff.1 ⟨hct, ht⟩) hh
              · rw [← e2] at hh; exact hcr hh
          · rw [if_neg hct]
            refine go (.inl ?_)
            by_cases ha : Allowed c
            · exact ha
            · exact absurd (isControl_iff.2 ha).1 hct

/-- Splitting off the carriage return in front of the line feed behind a comment. -/
theorem comment_split (txt r : Str) : ∃ t0 cr, txt = t0 ++ cr ∧
    (cr = [] ∨ (cr = ['\r'] ∧ r ≠ [])) ∧ (cr = [] → r ≠ [] → t0.getLast? ≠ some '\r') ∧
    ((!r.isEmpty && decide (txt.getLast? = some '\r')) = decide (cr = ['\r'])) := by
  by_cases h : r ≠ [] ∧ txt.getLast? = some '\r'
  · refine ⟨txt.dropLast, ['\r'], getLast?_some_app h.2, .inr ⟨rfl, h.1⟩, by simp, ?_⟩
    have : r.isEmpty = false := by cases r with
      | nil => exact absurd rfl h.1
      | cons => rfl
    simp [this, h.2]
  · refine ⟨txt, [], by simp, .inl rfl, fun _ hr hh => h ⟨hr, hh⟩, ?_⟩
    simp only [ne_eq, not_and] at h
    cases r with
    | nil => simp
    | cons c r => simp [h]

theorem comment_ok {t0 cr r : Str} (hnl : '\n' ∉ t0 ++ cr) (hr : r = [] ∨ ∃ r', r = '\n' :: r')
    (hcr : cr = [] ∨ (cr = ['\r'] ∧ r ≠ [])) (hlast : cr = [] → r ≠ [] → t0.getLast? ≠ some '\r') :
    CommentOk (t0 ++ cr) r ↔ ∀ c ∈ t0, Allowed c := by
  constructor
  · intro h c hc
    obtain ⟨a, b, rfl⟩ := List.append_of_mem hc
    rcases h a c (b ++ cr) (by simp) with h | ⟨rfl, hh⟩
    · exact h
    · exfalso
      cases b with
      | cons x b =>
        simp only [List.cons_append, List.head?_cons, Option.some.injEq] at hh
        exact hnl (by simp [hh])
      | nil =>
        rcases hcr with rfl | ⟨rfl, -⟩
        · refine hlast rfl ?_ (by simp)
          rintro rfl
          simp at hh
        · simp at hh
  · intro h a c b e
    by_cases hc : c ∈ t0
    · exact .inl (h c hc)
    · rcases hcr with rfl | ⟨rfl, hne⟩
      · rw [List.append_nil] at e
        exact absurd (by rw [e]; simp) hc
      · right
        have hb : b = [] := by
          cases b using snocRec with
          | nil => rfl
          | append_singleton b x _ =>
            exfalso
            rw [show a ++ c :: (b ++ [x]) = (a ++ c :: b) ++ [x] by simp] at e
            have := List.append_inj_left' e rfl
            exact hc (by rw [this]; simp)
        subst hb
        have := List.append_inj_right' e rfl
        simp only [List.cons.injEq, and_true] at this
        refine ⟨this.symm, ?_⟩
        rcases hr with hr | ⟨r', rfl⟩
        · exact absurd hr hne
        · rfl

/-- The grammar of comments, with the text up to the line feed known. -/
theorem tok_comment {R pre t0 cr r : Str} {ts : List (View × Pos)} (hR : R.length < ('#' :: (t0 ++ cr ++ r)).length) (hnl : '\n' ∉ t0 ++ cr)
    (hr : r = [] ∨ ∃ r', r = '\n' :: r')
    (hcr : cr = [] ∨ (cr = ['\r'] ∧ r ≠ [])) (hlast : cr = [] → r ≠ [] → t0.getLast? ≠ some '\r') :
    TokTo R pre ('#' :: (t0 ++ cr ++ r)) ts ↔ (∀ c ∈ t0, Allowed c) ∧
      ∃ t, ts = (.comment t0, posOf pre) :: t ∧ TokTo R (pre ++ '#' :: t0) (cr ++ r) t := by
  rw [tok_hash hR]
  constructor
  · rintro ⟨txt, s', t, h1, h2, h3, rfl, h5⟩
    have hntxt : '\n' ∉ txt := fun hh => not_allowed_nl (h2 _ hh)
    have hrtxt : '\r' ∉ txt := fun hh => not_allowed_cr (h2 _ hh)
    have key : txt = t0 ∧ s' = cr ++ r := by
      -- the text up to the first line feed
      have hfirst : ∀ {a b x y : Str}, '\n' ∉ a → '\n' ∉ b → a ++ x = b ++ y →
          (x = [] ∨ ∃ x', x = '\n' :: x') → (y = [] ∨ ∃ y', y = '\n' :: y') → a = b ∧ x = y := by
        intro a
        induction a with
        | nil =>
          intro b x y _ hb e hx hy
          cases b with
          | nil => exact ⟨rfl, by simpa using e⟩
          | cons d b =>
            exfalso
            rw [List.nil_append] at e
            rcases hx with rfl | ⟨x', rfl⟩
            · simp at e
            · simp only [List.cons_append, List.cons.injEq] at e
              exact hb (by rw [← e.1]; simp)
        | cons c a ih =>
          intro b x y ha hb e hx hy
          cases b with
          | nil =>
            exfalso
            rw [List.nil_append] at e
            rcases hy with rfl | ⟨x', rfl⟩
            · simp at e
            · simp only [List.cons_append, List.cons.injEq] at e
              exact ha (by simp [e.1])
          | cons d b =>
            simp only [List.cons_append, List.cons.injEq] at e
            simp only [List.mem_cons, not_or] at ha hb
            obtain ⟨rfl, rfl⟩ := ih ha.2 hb.2 e.2 hx hy
            exact ⟨by rw [e.1], rfl⟩
      rcases h3 with rfl | ⟨nl, s'', hn | hn, rfl⟩
      · rw [List.append_nil] at h1
        have : r = [] := by
          rcases hr with h | ⟨r', rfl⟩
          · exact h
          · exact absurd (by rw [← h1]; simp) hntxt
        subst this
        have : cr = [] := by
          rcases hcr with h | ⟨-, h⟩
          · exact h
          · exact absurd rfl h
        subst this
        simpa using h1.symm
      · subst hn
        obtain ⟨e1, e2⟩ := hfirst hnl hntxt h1 hr (.inr ⟨_, rfl⟩)
        have : cr = [] := by
          rcases hcr with h | ⟨rfl, -⟩
          · exact h
          · exact absurd (by rw [← e1]; simp) hrtxt
        subst this
        rw [List.append_nil] at e1
        exact ⟨e1.symm, by simpa using e2.symm⟩
      · subst hn
        rw [show txt ++ (['\r', '\n'] ++ s'') = (txt ++ ['\r']) ++ ('\n' :: s'') by simp] at h1
        obtain ⟨e1, e2⟩ := hfirst hnl (by simpa using hntxt) h1 hr (.inr ⟨_, rfl⟩)
        rcases hcr with rfl | ⟨rfl, -⟩
        · exfalso
          rw [List.append_nil] at e1
          refine hlast rfl (by rw [e2]; simp) ?_
          rw [e1]; simp
        · have := List.append_inj_left' e1 rfl
          exact ⟨this.symm, by rw [e2]; simp⟩
    obtain ⟨rfl, rfl⟩ := key
    exact ⟨h2, t, rfl, h5⟩
  · rintro ⟨h2, t, rfl, h5⟩
    refine ⟨t0, cr ++ r, t, by simp, h2, ?_, rfl, h5⟩
    rcases hr with rfl | ⟨r', rfl⟩
    · rcases hcr with rfl | ⟨-, h⟩
      · exact .inl rfl
      · exact absurd rfl h
    · right
      rcases hcr with rfl | ⟨rfl, -⟩
      · exact ⟨['\n'], r', .inl rfl, rfl⟩
      · exact ⟨['\r', '\n'], r', .inr rfl, rfl⟩

end Verif.Toml
