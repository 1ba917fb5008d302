import Verif.Semver.Trap
import Verif.Semver.DisplayLemmas
import Verif.Semver.OrderLemmas

/-! # How a requirement with wrapped numbers is displayed -/

namespace Verif.Semver
open Verif Verif.Spec Verif.Spec.Semver

theorem decimal_mod_length (a m : Nat) : (decimal (a % m)).length ≤ (decimal a).length := by
  by_cases h : (decimal a).length < (decimal (a % m)).length
  · have := decimal_length_lt h
    have := Nat.mod_le a m
    omega
  · omega

theorem cvText_wrap_length (cv : CompVersion) : (cvText (wrapCv cv)).length ≤ (cvText cv).length := by
  have d := fun a => decimal_mod_length a (2 ^ 32)
  rcases cv with w | ⟨a, _ | ⟨w, _ | w'⟩⟩ | ⟨a, b, _ | w⟩ | ⟨a, b, c, _ | m⟩ | ⟨a, b, c, p, _ | m⟩
  · simp [wrapCv, cvText]
  all_goals first | have hA := d a | skip
  all_goals first | have hB := d b | skip
  all_goals first | have hC := d c | skip
  all_goals
    simp only [wrapCv, cvText, List.length_append, List.length_cons, List.length_nil]
    omega

theorem padded_text_length (it : Item) : (padded it).text.length = it.text.length := by
  have := cvText_wrap_length it.cv
  simp only [padded, Item.text, List.length_append, spaces_length]
  omega

theorem hasWildcard_wrap (cv : CompVersion) : HasWildcard (wrapCv cv) ↔ HasWildcard cv := by
  cases cv <;> simp [wrapCv, HasWildcard]

theorem wrapCv_bare {cv : CompVersion} {w : WlChar} : wrapCv cv = .wl w ↔ cv = .wl w := by
  cases cv <;> simp [wrapCv]

theorem validCv_wrap {ovf : Bool} {cv : CompVersion} (h : WideCv ovf cv) : ValidCv (wrapCv cv) := by
  have hm : ∀ a : Nat, a % 2 ^ 32 < 2 ^ 32 := fun a => Nat.mod_lt _ (by decide)
  rcases cv with w | ⟨a, w⟩ | ⟨a, b, w⟩ | ⟨a, b, c, m⟩ | ⟨a, b, c, p, m⟩
  · trivial
  · exact hm a
  · exact ⟨hm a, hm b⟩
  · exact ⟨hm a, hm b, hm c, h.2.2.2⟩
  · exact ⟨hm a, hm b, hm c, h.2.2.2.1, h.2.2.2.2⟩

theorem padded_valid {ovf : Bool} {it : Item} (h : WideItem ovf it) : (padded it).Valid :=
  ⟨validCv_wrap h.cv, fun e => by simpa [padded, hasWildcard_wrap] using h.wl e,
    fun e => by simpa [padded, hasWildcard_wrap] using h.bl e, fun w e => h.bare w (wrapCv_bare.1 e)⟩

theorem padded_items {ovf : Bool} {its : List Item} (h : WideItems ovf its) : ValidItems (its.map padded) := by
  refine ⟨by simpa using h.nonempty, by simpa using h.bound, ?_, ?_⟩
  · intro x hx
    obtain ⟨it, hi, rfl⟩ := List.mem_map.1 hx
    exact padded_valid (h.valid it hi)
  · intro x hx w hw
    obtain ⟨it, hi, rfl⟩ := List.mem_map.1 hx
    simpa using h.sole it hi w (wrapCv_bare.1 hw)

theorem padded_comparators (off : Nat) (its : List Item) :
    comparatorsAt off (its.map padded) = (comparatorsAt off its).map wrapComparator := by
  induction its generalizing off with
  | nil => rfl
  | cons it its ih =>
    cases its with
    | nil => rfl
    | cons it' its =>
      have := ih (off + it.text.length + 1)
      simp only [List.map_cons, comparatorsAt, padded_text_length] at this ⊢
      rw [this]
      rfl

theorem padded_itemsText_length (its : List Item) : (itemsText (its.map padded)).length = (itemsText its).length := by
  induction its with
  | nil => rfl
  | cons it its ih =>
    cases its with
    | nil => exact padded_text_length it
    | cons it' its =>
      simp only [List.map_cons, itemsText, List.length_append, padded_text_length] at ih ⊢
      rw [ih]

/-- The requirement that is made of a wide text is the one of the padded text. -/
theorem wideReq_reqText {ovf : Bool} {its : List Item} (h : WideItems ovf its) (pos : Pos) :
    ReqText (itemsText (its.map padded)) pos ⟨pos, (itemsText its).length, (comparatorsAt 0 its).map wrapComparator⟩ :=
  ⟨its.map padded, padded_items h, rfl, by rw [padded_itemsText_length, padded_comparators]⟩

theorem digits_prefix {a b : Nat} {x y : Str} (hx : NoDigit x) (hy : NoDigit y) (h : decimal a ++ x = decimal b ++ y) :
    a = b ∧ x = y := by
  have e : ∀ (n : Nat) (z : Str), NoDigit z → (decimal n ++ z).takeWhile isDigit = decimal n := by
    intro n z hz
    rw [List.takeWhile_append_of_pos (fun c hc => List.all_eq_true.1 (decimal_all n) c hc)]
    have : z.takeWhile isDigit = [] := by
      cases z with
      | nil => rfl
      | cons c cs => simp [hz c rfl]
    rw [this, List.append_nil]
  have h1 := e a x hx
  rw [h, e b y hy] at h1
  have := decimal_inj h1.symm
  subst this
  exact ⟨rfl, List.append_cancel_left h⟩

theorem noDigit_nil : NoDigit [] := by intro c h; cases h
theorem noDigit_cons {c : Char} {s : Str} (h : isDigit c = false) : NoDigit (c :: s) := by
  intro d hd; cases hd; exact h

theorem cvText_wrap_inj {cv : CompVersion} (h : cvText cv = cvText (wrapCv cv)) : cv = wrapCv cv := by
  have nd := fun s => noDigit_cons (s := s) (show isDigit '.' = false by decide)
  have nm := fun s => noDigit_cons (s := s) (show isDigit '-' = false by decide)
  have np := fun s => noDigit_cons (s := s) (show isDigit '+' = false by decide)
  have nn := noDigit_nil
  rcases cv with w | ⟨a, _ | ⟨w, _ | w'⟩⟩ | ⟨a, b, _ | w⟩ | ⟨a, b, c, _ | m⟩ | ⟨a, b, c, p, _ | m⟩
  · rfl
  all_goals simp only [wrapCv, cvText, List.append_assoc, List.cons_append, List.nil_append, List.append_nil] at h
  · rw [wrapCv, ← decimal_inj h]
  · obtain ⟨e, -⟩ := digits_prefix (nd _) (nd _) h
    rw [wrapCv, ← e]
  · obtain ⟨e, -⟩ := digits_prefix (nd _) (nd _) h
    rw [wrapCv, ← e]
  · obtain ⟨e, h⟩ := digits_prefix (nd _) (nd _) h
    rw [wrapCv, ← e, ← decimal_inj (List.cons.inj h).2]
  · obtain ⟨e, h⟩ := digits_prefix (nd _) (nd _) h
    obtain ⟨e', -⟩ := digits_prefix (nd _) (nd _) (List.cons.inj h).2
    rw [wrapCv, ← e, ← e']
  · obtain ⟨e, h⟩ := digits_prefix (nd _) (nd _) h
    obtain ⟨e', h⟩ := digits_prefix (nd _) (nd _) (List.cons.inj h).2
    rw [wrapCv, ← e, ← e', ← decimal_inj (List.cons.inj h).2]
  · obtain ⟨e, h⟩ := digits_prefix (nd _) (nd _) h
    obtain ⟨e', h⟩ := digits_prefix (nd _) (nd _) (List.cons.inj h).2
    obtain ⟨e'', -⟩ := digits_prefix (np _) (np _) (List.cons.inj h).2
    rw [wrapCv, ← e, ← e', ← e'']
  · obtain ⟨e, h⟩ := digits_prefix (nd _) (nd _) h
    obtain ⟨e', h⟩ := digits_prefix (nd _) (nd _) (List.cons.inj h).2
    obtain ⟨e'', -⟩ := digits_prefix (nm _) (nm _) (List.cons.inj h).2
    rw [wrapCv, ← e, ← e', ← e'']
  · obtain ⟨e, h⟩ := digits_prefix (nd _) (nd _) h
    obtain ⟨e', h⟩ := digits_prefix (nd _) (nd _) (List.cons.inj h).2
    obtain ⟨e'', -⟩ := digits_prefix (nm _) (nm _) (List.cons.inj h).2
    rw [wrapCv, ← e, ← e', ← e'']

theorem versionText_wrap_inj {w : Version} (h : versionText w = versionText (wrapVersion w)) : w = wrapVersion w := by
  have nd := fun s => noDigit_cons (s := s) (show isDigit '.' = false by decide)
  have key : ∀ v : Version, NoDigit ((if v.pre = [] then [] else '-' :: v.pre) ++ (if v.build = [] then [] else '+' :: v.build)) := by
    intro v
    by_cases h1 : v.pre = [] <;> by_cases h2 : v.build = [] <;> simp only [h1, h2, if_true, if_false, List.nil_append, List.cons_append, reduceIte]
    · exact noDigit_nil
    · exact noDigit_cons (by decide)
    · exact noDigit_cons (by decide)
    · exact noDigit_cons (by decide)
  simp only [versionText, List.append_assoc, List.cons_append, List.nil_append] at h
  obtain ⟨e, h⟩ := digits_prefix (nd _) (nd _) h
  obtain ⟨e', h⟩ := digits_prefix (nd _) (nd _) (List.cons.inj h).2
  obtain ⟨e'', -⟩ := digits_prefix (key w) (key (wrapVersion w)) (List.cons.inj h).2
  cases w
  simp only [wrapVersion] at e e' e'' ⊢
  rw [← e, ← e', ← e'']

/-- No space in a written version of a comparator. -/
theorem cvText_no_space {ovf : Bool} {cv : CompVersion} (h : WideCv ovf cv) : ' ' ∉ cvText cv := by
  have hd : ∀ n, ' ' ∉ decimal n := by
    intro n hm
    have := List.all_eq_true.1 (decimal_all n) _ hm
    revert this; decide
  have hseg : ∀ (f : IdentField) (s : Str), (∀ x ∈ splitDot s, SegOk f x) → ' ' ∉ s := by
    intro f s hs hm
    have := List.all_eq_true.1 (segs_identOrDot hs) _ hm
    revert this; decide
  have hw : ∀ w : WlChar, w.char ≠ ' ' := by intro w; cases w <;> decide
  have hw' : ∀ w : WlChar, ' ' ≠ w.char := fun w e => hw w e.symm
  have hp : ∀ s, PreTag s → ' ' ∉ s := fun s e => hseg _ _ ((preTag_iff _).1 e)
  have hb : ∀ s, BuildTag s → ' ' ∉ s := fun s e => hseg _ _ ((buildTag_iff _).1 e)
  rcases cv with w | ⟨a, _ | ⟨w, _ | w'⟩⟩ | ⟨a, b, _ | w⟩ | ⟨a, b, c, _ | m⟩ | ⟨a, b, c, p, _ | m⟩
  all_goals simp only [cvText, List.mem_append, List.mem_cons, List.not_mem_nil, or_false, not_or]
  all_goals simp only [hd, hw', not_false_eq_true, true_and, and_true]
  all_goals first | trivial | skip
  all_goals first | decide | skip
  · exact ⟨⟨by decide, by decide⟩, by decide, hb _ (h.2.2.2 _ rfl)⟩
  · exact ⟨⟨⟨by decide, by decide⟩, by decide⟩, hp _ h.2.2.2.1⟩
  · exact ⟨⟨⟨⟨by decide, by decide⟩, by decide⟩, hp _ h.2.2.2.1⟩, by decide, hb _ (h.2.2.2.2 _ rfl)⟩

theorem spaces_end {a b : Str} {i j : Nat} (ha : ' ' ∉ a) (hb : ' ' ∉ b) (h : a ++ spaces i = b ++ spaces j) : a = b := by
  have e : ∀ (x : Str) (n : Nat), ' ' ∉ x → (x ++ spaces n).takeWhile (· ≠ ' ') = x := by
    intro x n hx
    rw [List.takeWhile_append_of_pos (by intro c hc; simp; rintro rfl; exact hx hc)]
    have : (spaces n).takeWhile (· ≠ ' ') = [] := by
      cases n with
      | zero => rfl
      | succ n => simp [spaces, List.replicate_succ]
    rw [this, List.append_nil]
  have := e a i ha
  rw [h, e b j hb] at this
  exact this.symm

theorem wideCv_fits {ovf : Bool} {cv : CompVersion} (h : WideCv ovf cv) : cv = wrapCv cv ↔ ValidCv cv := by
  constructor
  · intro e
    rw [e]
    exact validCv_wrap h
  · intro hv
    rcases cv with w | ⟨a, w⟩ | ⟨a, b, w⟩ | ⟨a, b, c, m⟩ | ⟨a, b, c, p, m⟩
    · rfl
    · simp only [wrapCv, Nat.mod_eq_of_lt hv]
    · simp only [wrapCv, Nat.mod_eq_of_lt hv.1, Nat.mod_eq_of_lt hv.2]
    · simp only [wrapCv, Nat.mod_eq_of_lt hv.1, Nat.mod_eq_of_lt hv.2.1, Nat.mod_eq_of_lt hv.2.2.1]
    · simp only [wrapCv, Nat.mod_eq_of_lt hv.1, Nat.mod_eq_of_lt hv.2.1, Nat.mod_eq_of_lt hv.2.2.1]

theorem padded_text_eq {ovf : Bool} {it : Item} (hi : WideItem ovf it) (h : it.text = (padded it).text) : ValidCv it.cv := by
  refine (wideCv_fits hi.cv).1 (cvText_wrap_inj ?_)
  have h' : spaces it.sp0 ++ (opWritten it.op ++ (spaces it.sp1 ++ (cvText it.cv ++ spaces it.sp2))) =
      spaces it.sp0 ++ (opWritten it.op ++ (spaces it.sp1 ++ (cvText (wrapCv it.cv) ++ spaces (padded it).sp2))) := by
    simpa [Item.text, padded, List.append_assoc] using h
  have h' := List.append_cancel_left (List.append_cancel_left (List.append_cancel_left h'))
  have hp := padded_valid hi
  refine spaces_end (cvText_no_space hi.cv) ?_ h'
  refine cvText_no_space (ovf := true) ?_
  have := validCv_wrap hi.cv
  revert this
  cases wrapCv it.cv <;> exact fun h => h

theorem padded_itemsText_eq {ovf : Bool} {its : List Item} (hi : ∀ it ∈ its, WideItem ovf it)
    (h : itemsText its = itemsText (its.map padded)) : ∀ it ∈ its, ValidCv it.cv := by
  induction its with
  | nil => simp
  | cons it its ih =>
    cases its with
    | nil =>
      intro x hx
      rcases List.mem_singleton.1 hx with rfl
      exact padded_text_eq (hi x (by simp)) h
    | cons it' its =>
      simp only [List.map_cons, itemsText, List.append_assoc] at h
      obtain ⟨h1, h2⟩ := List.append_inj h (padded_text_length it).symm
      have h2 := (List.append_inj h2 rfl).2
      intro x hx
      rcases List.mem_cons.1 hx with rfl | hx
      · exact padded_text_eq (hi x (by simp)) h1
      · exact ih (fun y hy => hi y (List.mem_cons_of_mem _ hy)) h2 x hx

theorem padded_self {it : Item} (h : ValidCv it.cv) : padded it = it := by
  have hw : WideCv true it.cv := by
    revert h
    cases it.cv <;> exact fun h => h
  have e := (wideCv_fits hw).2 h
  cases it
  simp only [padded] at e ⊢
  rw [← e]
  simp

end Verif.Semver
