import Verif.Spec.Check

/-! # Reasoning about the check: each message once -/

namespace Verif.Ide
open Verif Verif.Toml Verif.TomlMap
open Verif.Spec.Toml hiding Entry KeyOk
open Verif.Spec.Check hiding Section SectionKey

section Once
variable {R A : Type}

theorem once_nil : ExactlyOnce ([] : List A) (fun (_ : R) _ => False) :=
  ⟨[], rfl, List.nodup_nil, by simp⟩

theorem once_one (r : R) (a : A) : ExactlyOnce [a] (fun r' a' => r' = r ∧ a' = a) :=
  ⟨[(r, a)], rfl, by simp, by simp⟩

theorem once_append {as bs : List A} {P Q : R → A → Prop} (ha : ExactlyOnce as P)
    (hb : ExactlyOnce bs Q) (hd : ∀ r a b, P r a → Q r b → False) :
    ExactlyOnce (as ++ bs) (fun r a => P r a ∨ Q r a) := by
  obtain ⟨l, rfl, h1, h2⟩ := ha
  obtain ⟨l', rfl, h1', h2'⟩ := hb
  refine ⟨l ++ l', by simp, ?_, ?_⟩
  · rw [List.map_append, List.nodup_append]
    refine ⟨h1, h1', ?_⟩
    rintro r hr _ hr' rfl
    obtain ⟨⟨_, a⟩, ha, rfl⟩ := List.mem_map.1 hr
    obtain ⟨⟨r, b⟩, hb, hh⟩ := List.mem_map.1 hr'
    dsimp at hh
    subst hh
    exact hd _ _ _ ((h2 _ _).1 ha) ((h2' _ _).1 hb)
  · intro r a
    rw [List.mem_append, h2, h2']

theorem _root_.Verif.Spec.Check.ExactlyOnce.congr {as : List A} {P Q : R → A → Prop}
    (h : ExactlyOnce as P) (hpq : ∀ r a, P r a ↔ Q r a) : ExactlyOnce as Q := by
  obtain ⟨l, h0, h1, h2⟩ := h
  exact ⟨l, h0, h1, fun r a => (h2 r a).trans (hpq r a)⟩

/-- The element is determined by the reason. -/
theorem _root_.Verif.Spec.Check.ExactlyOnce.unique {as : List A} {P : R → A → Prop} (h : ExactlyOnce as P)
    {r : R} {a b : A} (ha : P r a) (hb : P r b) : a = b := by
  obtain ⟨l, -, h1, h2⟩ := h
  have ha := (h2 _ _).2 ha
  have hb := (h2 _ _).2 hb
  clear h2
  induction l with
  | nil => cases ha
  | cons x l ih =>
    rw [List.map_cons, List.nodup_cons] at h1
    rcases List.mem_cons.1 ha with ha | ha <;> rcases List.mem_cons.1 hb with hb | hb
    · rw [← ha] at hb
      exact (Prod.mk.inj hb).2.symm
    · exact absurd (List.mem_map_of_mem (f := Prod.fst) hb) (by rw [← ha] at h1; exact h1.1)
    · exact absurd (List.mem_map_of_mem (f := Prod.fst) ha) (by rw [← hb] at h1; exact h1.1)
    · exact ih h1.2 ha hb

theorem nodup_of_map {α β : Type} {f : α → β} {l : List α} (h : (l.map f).Nodup) : l.Nodup := by
  induction l with
  | nil => exact List.nodup_nil
  | cons a l ih =>
    rw [List.map_cons, List.nodup_cons] at h
    rw [List.nodup_cons]
    exact ⟨fun ha => h.1 (List.mem_map_of_mem ha), ih h.2⟩

/-- Two lists for the same reasons are the same up to the order. -/
theorem _root_.Verif.Spec.Check.ExactlyOnce.perm {as bs : List A} {P : R → A → Prop}
    (ha : ExactlyOnce as P) (hb : ExactlyOnce bs P) : as.Perm bs := by
  obtain ⟨l, rfl, h1, h2⟩ := ha
  obtain ⟨l', rfl, h1', h2'⟩ := hb
  refine List.Perm.map _ ((List.perm_ext_iff_of_nodup (nodup_of_map h1) (nodup_of_map h1')).2 ?_)
  rintro ⟨r, a⟩
  exact (h2 r a).trans (h2' r a).symm

theorem _root_.Verif.Spec.Check.ExactlyOnce.mem {as : List A} {P : R → A → Prop} (h : ExactlyOnce as P)
    (a : A) : a ∈ as ↔ ∃ r, P r a := by
  obtain ⟨l, rfl, -, h2⟩ := h
  rw [List.mem_map]
  constructor
  · rintro ⟨⟨r, _⟩, hx, rfl⟩
    exact ⟨r, (h2 _ _).1 hx⟩
  · rintro ⟨r, hr⟩
    exact ⟨(r, a), (h2 _ _).2 hr, rfl⟩

end Once

/-! ## Runs -/

abbrev Pred := Reason → Msg → Prop

/-- It does not panic, the result satisfies `Q`, and there is exactly one message for each reason. -/
def Runs {α : Type} (x : CheckM α) (Q : α → Prop) (P : Pred) : Prop :=
  ∃ a ms, x = some (a, ms) ∧ Q a ∧ ExactlyOnce ms P

/-- No reasons. -/
def Never : Pred := fun _ _ => False

section
variable {α β : Type} {Q : α → Prop} {S : β → Prop}

theorem Runs.pure {a : α} (h : Q a) : Runs (Pure.pure a) Q Never := ⟨a, [], rfl, h, once_nil⟩

theorem Runs.ret {a : α} : Runs (Pure.pure a) (· = a) Never := Runs.pure (Q := (· = a)) rfl

theorem Runs.bind {x : CheckM α} {f : α → CheckM β} {P P' : Pred} (hx : Runs x Q P)
    (hf : ∀ a, Q a → Runs (f a) S P') (hd : ∀ r m m', P r m → P' r m' → False) :
    Runs (x >>= f) S (fun r m => P r m ∨ P' r m) := by
  obtain ⟨a, ms, rfl, ha, hp⟩ := hx
  obtain ⟨b, ms', hb, hs, hp'⟩ := hf a ha
  exact ⟨b, ms ++ ms', by show CheckM.bind _ _ = _; simp only [CheckM.bind, hb]; rfl, hs,
    once_append hp hp' hd⟩

theorem Runs.congr {x : CheckM α} {P P' : Pred} (h : Runs x Q P) (hp : ∀ r m, P r m ↔ P' r m) :
    Runs x Q P' := by
  obtain ⟨a, ms, h1, h2, h3⟩ := h
  exact ⟨a, ms, h1, h2, h3.congr hp⟩

theorem Runs.mono {x : CheckM α} {P : Pred} {Q' : α → Prop} (h : Runs x Q P) (hq : ∀ a, Q a → Q' a) :
    Runs x Q' P := by
  obtain ⟨a, ms, h1, h2, h3⟩ := h
  exact ⟨a, ms, h1, hq a h2, h3⟩

/-- A bind where the first part makes no messages. -/
theorem Runs.bindL {x : CheckM α} {f : α → CheckM β} {P' : Pred} (hx : Runs x Q Never)
    (hf : ∀ a, Q a → Runs (f a) S P') : Runs (x >>= f) S P' :=
  (hx.bind hf (fun _ _ _ h => h.elim)).congr fun r m => by simp [Never]

/-- A bind where the second part makes no messages. -/
theorem Runs.bindR {x : CheckM α} {f : α → CheckM β} {P : Pred} (hx : Runs x Q P)
    (hf : ∀ a, Q a → Runs (f a) S Never) : Runs (x >>= f) S P :=
  (hx.bind hf (fun _ _ _ _ h => h.elim)).congr fun r m => by simp [Never]

theorem Runs.lift {x : Option α} {a : α} (hx : x = some a) (h : Q a) : Runs (liftC x) Q Never := by
  subst hx
  exact ⟨a, [], rfl, h, once_nil⟩

theorem Runs.emit {o : Option Msg} {m : Msg} (h : o = some m) (r : Reason) :
    Runs (emit o) (fun _ => True) (fun r' m' => r' = r ∧ m' = m) := by
  subst h
  exact ⟨(), [m], rfl, trivial, once_one r m⟩

/-- A loop over the elements of a list, where the reasons tell the index. -/
theorem Runs.each {l : List α} {f : α → CheckM Unit} {P : Nat → α → Pred} (n : Nat)
    (hf : ∀ i a, l[i]? = some a → Runs (f a) (fun _ => True) (P (n + i) a))
    (hd : ∀ i j a b r m m', P i a r m → P j b r m' → i = j) :
    Runs (each l f) (fun _ => True) (fun r m => ∃ i a, l[i]? = some a ∧ P (n + i) a r m) := by
  induction l generalizing n with
  | nil => exact (Runs.pure (Q := fun _ => True) trivial).congr fun r m => by simp [Never]
  | cons a l ih =>
    have h1 := hf 0 a rfl
    have h2 := ih (n + 1) fun i b hb => by
      have := hf (i + 1) b hb
      rwa [show n + (i + 1) = n + 1 + i from by omega] at this
    refine (h1.bind (fun _ _ => h2) ?_).congr fun r m => ?_
    · rintro r m m' h ⟨i, b, -, h'⟩
      have := hd _ _ _ _ _ _ _ h h'
      omega
    · constructor
      · rintro (h | ⟨i, b, hb, h⟩)
        · exact ⟨0, a, rfl, h⟩
        · exact ⟨i + 1, b, hb, by rwa [show n + (i + 1) = n + 1 + i from by omega]⟩
      · rintro ⟨i, b, hb, h⟩
        cases i with
        | zero =>
          simp only [List.getElem?_cons_zero, Option.some.injEq] at hb
          subst hb
          exact Or.inl h
        | succ i => exact Or.inr ⟨i, b, hb, by rwa [show n + 1 + i = n + (i + 1) from by omega]⟩

end

/-! ## Loops over tables -/

theorem get_iff {N : Type} {t : TableF N} (h : (t.map (·.1)).Nodup) (k : Str) (e : EntryF N) :
    get t k = some e ↔ (k, e) ∈ t := by
  induction t with
  | nil => simp [TomlMap.get]
  | cons x t ih =>
    obtain ⟨k', e'⟩ := x
    rw [List.map_cons, List.nodup_cons] at h
    simp only [TomlMap.get]
    by_cases hk : k' = k
    · subst hk
      rw [if_pos rfl]
      constructor
      · intro h'
        simp_all
      · intro h'
        rcases List.mem_cons.1 h' with h' | h'
        · simp_all
        · exact absurd (List.mem_map_of_mem (f := Prod.fst) h') h.1
    · rw [if_neg hk, ih h.2, List.mem_cons]
      simp [Ne.symm hk]

variable {β : Type}

/-- A loop over a table that computes something. -/
theorem Runs.fold {t : MapTable} (h : (t.map (·.1)).Nodup) {f : β → Str × Entry → CheckM β} {g : β → Str → Entry → β}
    {P : Str → Entry → Pred} (b : β)
    (hf : ∀ b k e, get t k = some e → Runs (f b (k, e)) (· = g b k e) (P k e))
    (hd : ∀ k k' e e' r m m', P k e r m → P k' e' r m' → k = k') :
    Runs (loop t b f) (· = t.foldl (fun b ke => g b ke.1 ke.2) b)
      (fun r m => ∃ k e, get t k = some e ∧ P k e r m) := by
  have key : ∀ (l : MapTable) (b : β), (l.map (·.1)).Nodup → (∀ x ∈ l, x ∈ t) →
      Runs (loop l b f) (· = l.foldl (fun b ke => g b ke.1 ke.2) b)
        (fun r m => ∃ k e, (k, e) ∈ l ∧ P k e r m) := by
    intro l
    induction l with
    | nil =>
      intro b _ _
      exact (Runs.pure (Q := (· = b)) rfl).congr fun r m => by simp [Never]
    | cons x l ih =>
      obtain ⟨k, e⟩ := x
      intro b hn hm
      rw [List.map_cons, List.nodup_cons] at hn
      have h1 := hf b k e ((get_iff h k e).2 (hm _ List.mem_cons_self))
      refine (h1.bind (S := (· = ((k, e) :: l).foldl (fun b ke => g b ke.1 ke.2) b)) (fun a ha => by
        subst ha
        exact ih _ hn.2 fun x hx => hm x (List.mem_cons_of_mem _ hx)) ?_).congr fun r m => ?_
      · rintro r m m' h ⟨k', e', hx, h'⟩
        have hk := hd _ _ _ _ _ _ _ h h'
        subst hk
        exact hn.1 (List.mem_map.2 ⟨_, hx, rfl⟩)
      · constructor
        · rintro (h | ⟨k', e', hx, h⟩)
          · exact ⟨k, e, List.mem_cons_self, h⟩
          · exact ⟨k', e', List.mem_cons_of_mem _ hx, h⟩
        · rintro ⟨k', e', hx, h⟩
          rcases List.mem_cons.1 hx with hx | hx
          · cases hx
            exact Or.inl h
          · exact Or.inr ⟨k', e', hx, h⟩
  refine (key t b h fun _ hx => hx).congr fun r m => ?_
  simp only [get_iff h]

/-- A loop over a table that appends to a list. -/
theorem Runs.collect {R : Type} {A : Type} {t : MapTable} (h : (t.map (·.1)).Nodup)
    {f : List A → Str × Entry → CheckM (List A)}
    {D : Str → Entry → R → A → Prop} {P : Str → Entry → Pred} (s : List A)
    (hf : ∀ s k e, get t k = some e →
      Runs (f s (k, e)) (fun s' => ∃ as, s' = s ++ as ∧ ExactlyOnce as (D k e)) (P k e))
    (hD : ∀ k k' e e' r a a', D k e r a → D k' e' r a' → k = k')
    (hd : ∀ k k' e e' r m m', P k e r m → P k' e' r m' → k = k') :
    Runs (loop t s f)
      (fun s' => ∃ as, s' = s ++ as ∧ ExactlyOnce as (fun r a => ∃ k e, get t k = some e ∧ D k e r a))
      (fun r m => ∃ k e, get t k = some e ∧ P k e r m) := by
  have key : ∀ (l : MapTable) (s : List A), (l.map (·.1)).Nodup → (∀ x ∈ l, x ∈ t) →
      Runs (loop l s f)
        (fun s' => ∃ as, s' = s ++ as ∧ ExactlyOnce as (fun r a => ∃ k e, (k, e) ∈ l ∧ D k e r a))
        (fun r m => ∃ k e, (k, e) ∈ l ∧ P k e r m) := by
    intro l
    induction l with
    | nil =>
      intro s _ _
      exact (Runs.pure (α := List A) (a := s) ⟨[], by simp, once_nil.congr (by simp)⟩).congr fun r m => by
        simp [Never]
    | cons x l ih =>
      obtain ⟨k, e⟩ := x
      intro s hn hm
      rw [List.map_cons, List.nodup_cons] at hn
      have h1 := hf s k e ((get_iff h k e).2 (hm _ List.mem_cons_self))
      refine (h1.bind (P' := fun r m => ∃ k' e', (k', e') ∈ l ∧ P k' e' r m) (S := fun s' => ∃ as, s' = s ++ as ∧
          ExactlyOnce as (fun r a => ∃ k' e', (k', e') ∈ (k, e) :: l ∧ D k' e' r a)) (fun a ha => ?_)
          ?_).congr fun r m => ?_
      · obtain ⟨as, rfl, has⟩ := ha
        refine (ih (s ++ as) hn.2 fun x hx => hm x (List.mem_cons_of_mem _ hx)).mono ?_
        rintro s' ⟨bs, rfl, hbs⟩
        refine ⟨as ++ bs, by simp, (once_append has hbs ?_).congr fun r a => ?_⟩
        · rintro r a b h ⟨k', e', hx, h'⟩
          have hk := hD _ _ _ _ _ _ _ h h'
          subst hk
          exact hn.1 (List.mem_map.2 ⟨_, hx, rfl⟩)
        · constructor
          · rintro (h | ⟨k', e', hx, h⟩)
            · exact ⟨k, e, List.mem_cons_self, h⟩
            · exact ⟨k', e', List.mem_cons_of_mem _ hx, h⟩
          · rintro ⟨k', e', hx, h⟩
            rcases List.mem_cons.1 hx with hx | hx
            · cases hx
              exact Or.inl h
            · exact Or.inr ⟨k', e', hx, h⟩
      · rintro r m m' h ⟨k', e', hx, h'⟩
        have hk := hd _ _ _ _ _ _ _ h h'
        subst hk
        exact hn.1 (List.mem_map.2 ⟨_, hx, rfl⟩)
      · constructor
        · rintro (h | ⟨k', e', hx, h⟩)
          · exact ⟨k, e, List.mem_cons_self, h⟩
          · exact ⟨k', e', List.mem_cons_of_mem _ hx, h⟩
        · rintro ⟨k', e', hx, h⟩
          rcases List.mem_cons.1 hx with hx | hx
          · cases hx
            exact Or.inl h
          · exact Or.inr ⟨k', e', hx, h⟩
  refine ((key t s h fun _ hx => hx).congr fun r m => ?_).mono ?_
  · simp only [get_iff h]
  · rintro s' ⟨as, rfl, has⟩
    exact ⟨as, rfl, has.congr fun r a => by simp only [get_iff h]⟩

/-- The value of a field after a loop that sets it at one key. -/
theorem foldl_field {γ : Type} {t : MapTable} (h : (t.map (·.1)).Nodup) (π : β → γ) (g : β → Str → Entry → β)
    (k0 : Str) (v : γ → Entry → γ)
    (hset : ∀ b e, π (g b k0 e) = v (π b) e)
    (hkeep : ∀ b k e, get t k = some e → k ≠ k0 → π (g b k e) = π b) (b : β) :
    π (t.foldl (fun b ke => g b ke.1 ke.2) b) =
      match get t k0 with
      | some e => v (π b) e
      | none => π b := by
  have key : ∀ (l : MapTable) (b : β), (l.map (·.1)).Nodup → (∀ x ∈ l, x ∈ t) →
      π (l.foldl (fun b ke => g b ke.1 ke.2) b) =
        match get l k0 with
        | some e => v (π b) e
        | none => π b := by
    intro l
    induction l with
    | nil => intro b _ _; rfl
    | cons x l ih =>
      obtain ⟨k, e⟩ := x
      intro b hn hm
      rw [List.map_cons, List.nodup_cons] at hn
      rw [List.foldl_cons, ih _ hn.2 fun x hx => hm x (List.mem_cons_of_mem _ hx)]
      simp only [TomlMap.get]
      by_cases hk : k = k0
      · subst hk
        rw [if_pos rfl]
        have : get l k = none := by
          cases hg : get l k with
          | none => rfl
          | some e' => exact absurd (List.mem_map_of_mem (f := Prod.fst) ((get_iff hn.2 k e').1 hg)) hn.1
        rw [this]
        exact hset b e
      · rw [if_neg hk]
        rw [hkeep b k e ((get_iff h k e).2 (hm _ List.mem_cons_self)) hk]
  exact key t b h fun _ hx => hx

end Verif.Ide
