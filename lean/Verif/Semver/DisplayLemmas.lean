import Verif.Semver.SpanLemmas
import Verif.Semver.Display

/-! # Helper lemmas for `Display` -/

namespace Verif.Semver
open Verif Verif.Spec Verif.Spec.Semver

theorem compVersionText_eq (cv : CompVersion) : compVersionText cv = cvText cv := by
  cases cv with
  | wl w => rfl
  | major a w => rcases w with _ | ⟨w, _ | w'⟩ <;> simp [cvText, compVersionText]
  | minor a b w => cases w <;> simp [cvText, compVersionText]
  | patch a b c m => cases m <;> simp [cvText, compVersionText]
  | pre a b c p m => cases m <;> simp [cvText, compVersionText]

theorem opText_eq (op : Op) : opText op = opWritten op := by cases op <;> rfl

theorem displayVersion_eq (v : Version) : displayVersion v = versionText v := by
  obtain ⟨a, b, c, p, m⟩ := v
  cases p <;> cases m <;> simp [displayVersion, versionText]

theorem padTo_eq {w : W} {n t : Nat} (h : t = w.pos + n) : w.padTo t = some (w.write (spaces n)) := by
  subst h
  unfold W.padTo
  rw [if_neg (by omega)]
  simp [spaces]

/-- The item without the trailing spaces. -/
def itemBody (it : Item) : Str := opWritten it.op ++ (spaces it.sp1 ++ cvText it.cv)

theorem item_text_body (it : Item) : it.text = spaces it.sp0 ++ (itemBody it ++ spaces it.sp2) := by
  simp [Item.text, itemBody]

theorem blen_op (op : Op) : blen (opWritten op) = (opWritten op).length := by cases op <;> decide

theorem fmtComparator_eq (w : W) (it : Item) (hv : it.Valid) (off : Nat) (comma : Option Nat)
    (hcomma : ∀ o, comma = some o → o = off + (itemBody it).length + it.sp2) :
    fmtComparator w ⟨off, it.op, off + (opWritten it.op).length + it.sp1, it.cv, comma⟩ =
      some (match comma with
        | none => ⟨off + (itemBody it).length, w.out ++ itemBody it⟩
        | some o => ⟨o + 1, w.out ++ itemBody it ++ spaces it.sp2 ++ [',']⟩) := by
  unfold fmtComparator
  rw [opText_eq, compVersionText_eq]
  simp only
  rw [padTo_eq (n := it.sp1) (by simp [W.write, blen_op])]
  cases comma with
  | none =>
    simp [W.write, itemBody, blen_op, blen_spaces, spaces_length, ascii_cvText hv.cv]
    omega
  | some o =>
    have ho := hcomma o rfl
    subst ho
    simp only [Option.bind_eq_bind, Option.bind_some]
    rw [padTo_eq (n := it.sp2) (by
      simp [W.write, itemBody, blen_op, blen_spaces, spaces_length, ascii_cvText hv.cv]; omega)]
    have hc : (',' : Char).utf8Size = 1 := by decide
    simp [W.write, itemBody, blen_op, blen_spaces, spaces_length, ascii_cvText hv.cv, hc]
    omega

/-- Last item's trailing spaces. -/
def lastSp : List Item → Nat
  | [] => 0
  | [it] => it.sp2
  | _ :: it' :: its => lastSp (it' :: its)

/-- `itemsText` without the trailing spaces. -/
def itemsBody : List Item → Str
  | [] => []
  | [it] => spaces it.sp0 ++ itemBody it
  | it :: it' :: its => it.text ++ [','] ++ itemsBody (it' :: its)

theorem itemsText_body (its : List Item) : itemsText its = itemsBody its ++ spaces (lastSp its) := by
  induction its with
  | nil => rfl
  | cons it its ih =>
    cases its with
    | nil => simp [itemsText, itemsBody, lastSp, item_text_body]
    | cons it' its => simp [itemsText, itemsBody, lastSp, ih]

theorem fmtOthers_eq (its : List Item) (hv : ∀ it ∈ its, it.Valid) (w : W) :
    its ≠ [] →
    fmtOthers w (comparatorsAt w.pos its) =
      some ⟨w.pos + (itemsBody its).length, w.out ++ itemsBody its⟩ := by
  induction its generalizing w with
  | nil => intro h; exact absurd rfl h
  | cons it its ih =>
    intro _
    have hi := hv it (by simp)
    cases its with
    | nil =>
      simp only [comparatorsAt, fmtOthers]
      rw [padTo_eq rfl]
      simp only [Option.bind_eq_bind, Option.bind_some]
      rw [fmtComparator_eq _ it hi _ none (by simp)]
      simp [W.write, itemsBody, spaces_length, Nat.add_assoc]
    | cons it' its =>
      simp only [comparatorsAt, fmtOthers]
      rw [padTo_eq rfl]
      simp only [Option.bind_eq_bind, Option.bind_some]
      rw [fmtComparator_eq _ it hi _ _ (by
        intro o ho; cases ho
        rw [item_text_body]; simp [spaces_length]; omega)]
      simp only [Option.bind_some]
      rw [ih (fun i h => hv i (by simp only [List.mem_cons] at h ⊢; exact .inr h)) _ (by simp)]
      simp [W.write, itemsBody, item_text_body, spaces_length]
      omega

theorem fmtRequirement_eq (alt : Bool) (its : List Item) (hne : its ≠ [])
    (hv : ∀ it ∈ its, it.Valid) (pos : Pos) :
    displayReq alt ⟨pos, (itemsText its).length, comparatorsAt 0 its⟩ =
      some (if alt then (itemsBody its).drop (its.head hne).sp0 else itemsText its) := by
  have key : ∀ (it : Item) (rest : List Item), its = it :: rest → ∀ w : W,
      (match comparatorsAt 0 its with
        | [] => none
        | first :: others => do
          let w ← fmtComparator w first
          fmtOthers w others) =
      some ⟨(itemsBody its).length, w.out ++ (itemsBody its).drop it.sp0⟩ := by
    rintro it rest rfl w
    have hi := hv it (by simp)
    cases rest with
    | nil =>
      simp only [comparatorsAt]
      rw [fmtComparator_eq w it hi _ none (by simp)]
      simp [fmtOthers, itemsBody, spaces_length, spaces, List.drop_append]
    | cons it' its =>
      simp only [comparatorsAt]
      rw [fmtComparator_eq w it hi _ _ (by
        intro o ho; cases ho
        rw [item_text_body]; simp [spaces_length]; omega)]
      simp only [Option.bind_eq_bind, Option.bind_some]
      have := fmtOthers_eq (it' :: its) (fun i h => hv i (by simp only [List.mem_cons] at h ⊢; exact .inr h))
        ⟨0 + it.text.length + 1, w.out ++ itemBody it ++ spaces it.sp2 ++ [',']⟩ (by simp)
      simp only at this
      rw [this]
      simp [itemsBody, item_text_body, spaces_length, spaces, List.drop_append]
      omega
  obtain ⟨it, rest, rfl⟩ := List.exists_cons_of_ne_nil hne
  have hfirst : ∃ others, comparatorsAt 0 (it :: rest) =
      ⟨0 + it.sp0, it.op, 0 + it.sp0 + (opWritten it.op).length + it.sp1, it.cv,
        (if rest = [] then none else some (0 + it.text.length))⟩ :: others := by
    cases rest with
    | nil => exact ⟨_, rfl⟩
    | cons it' its => exact ⟨_, rfl⟩
  obtain ⟨others, ho⟩ := hfirst
  have hbody : ∃ t, itemsBody (it :: rest) = spaces it.sp0 ++ t := by
    cases rest with
    | nil => exact ⟨_, rfl⟩
    | cons it' its => exact ⟨itemBody it ++ spaces it.sp2 ++ ',' :: itemsBody (it' :: its), by
        simp [itemsBody, item_text_body]⟩
  obtain ⟨t, ht⟩ := hbody
  have hdrop : (itemsBody (it :: rest)).drop it.sp0 = t := by
    rw [ht]; simp [spaces, List.drop_append]
  unfold displayReq fmtRequirement
  simp only [ho]
  cases alt with
  | true =>
    have := key it rest rfl ⟨0, []⟩
    simp only [ho] at this
    simp only [if_true, List.head_cons]
    simp only [Option.bind_eq_bind] at this ⊢
    cases hf : fmtComparator ⟨0, []⟩ ⟨0 + it.sp0, it.op, 0 + it.sp0 + (opWritten it.op).length + it.sp1, it.cv,
        (if rest = [] then none else some (0 + it.text.length))⟩ with
    | none => rw [hf] at this; simp at this
    | some w1 =>
      rw [hf] at this
      simp only [Option.bind_some] at this ⊢
      rw [this]; simp
  | false =>
    have := key it rest rfl (W.write ⟨0, []⟩ (List.replicate (0 + it.sp0) ' '))
    simp only [ho] at this
    simp only [Option.bind_eq_bind] at this ⊢
    cases hf : fmtComparator (W.write ⟨0, []⟩ (List.replicate (0 + it.sp0) ' '))
        ⟨0 + it.sp0, it.op, 0 + it.sp0 + (opWritten it.op).length + it.sp1, it.cv,
        (if rest = [] then none else some (0 + it.text.length))⟩ with
    | none => rw [hf] at this; simp at this
    | some w1 =>
      rw [hf] at this
      simp only [Option.bind_some, Bool.false_eq_true, if_false, hf] at this ⊢
      rw [this]
      simp only [Option.bind_some]
      rw [padTo_eq (n := lastSp (it :: rest)) (by rw [itemsText_body]; simp [spaces_length])]
      simp only [W.write, List.nil_append, Option.map_some]
      rw [hdrop, itemsText_body, ht]
      simp [spaces]

theorem noSpace_cvText {cv : CompVersion} (h : ValidCv cv) : ' ' ∉ cvText cv := by
  have hd : ∀ n, ' ' ∉ decimal n := by
    intro n hm
    have := List.all_eq_true.1 (decimal_all n) _ hm
    revert this; decide
  have hw : ∀ w : WlChar, ' ' ≠ w.char := by intro w; cases w <;> decide
  have hseg : ∀ (f : IdentField) (s : Str), (∀ x ∈ splitDot s, SegOk f x) → ' ' ∉ s := by
    intro f s hs hm
    rw [← dotted_splitDot s] at hm
    obtain ⟨x, hx, hcx⟩ := mem_dotted hm (by decide)
    have := List.all_eq_true.1 (hs x hx).2.1 _ hcx
    revert this; decide
  have hb : ∀ s, BuildTag s → ' ' ∉ s := fun s hs => hseg _ _ ((buildTag_iff _).1 hs)
  have hp : ∀ s, PreTag s → ' ' ∉ s := fun s hs => hseg _ _ ((preTag_iff _).1 hs)
  cases cv with
  | wl w => simp [cvText, hw]
  | major a w => rcases w with _ | ⟨w, _ | w'⟩ <;> simp [cvText, hd, hw]
  | minor a b w => cases w <;> simp [cvText, hd, hw]
  | patch a b c m =>
    cases m with
    | none => simp [cvText, hd]
    | some m => simp [cvText, hd, hb m (h.2.2.2 m rfl)]
  | pre a b c p m =>
    cases m with
    | none => simp [cvText, hd, hp p h.2.2.2.1]
    | some m => simp [cvText, hd, hp p h.2.2.2.1, hb m (h.2.2.2.2 m rfl)]

theorem itemsBody_last {its : List Item} (hne : its ≠ []) (hv : ∀ it ∈ its, it.Valid) :
    (itemsBody its).getLast? ≠ some ' ' := by
  induction its with
  | nil => exact absurd rfl hne
  | cons it its ih =>
    cases its with
    | nil =>
      have hs := noSpace_cvText (hv it (by simp)).cv
      simp only [itemsBody, itemBody, List.getLast?_append]
      cases hl : (cvText it.cv).getLast? with
      | none => exact absurd (List.getLast?_eq_none_iff.1 hl) (cvText_ne_nil _)
      | some c =>
        intro h
        simp only [Option.some_or, Option.some.injEq] at h
        subst h
        exact hs (List.mem_of_getLast? hl)
    | cons it' its =>
      have hb : itemsBody (it' :: its) ≠ [] := by
        cases its with
        | nil => simp [itemsBody, itemBody, cvText_ne_nil]
        | cons => simp [itemsBody]
      have := ih (by simp) (fun i h => hv i (by simp only [List.mem_cons] at h ⊢; exact .inr h))
      simp only [itemsBody, List.getLast?_append]
      cases hl : (itemsBody (it' :: its)).getLast? with
      | none => exact absurd (List.getLast?_eq_none_iff.1 hl) hb
      | some c => rw [hl] at this; simpa using this

theorem itemsBody_first {its : List Item} (hne : its ≠ []) (hv : ∀ it ∈ its, it.Valid) :
    ((itemsBody its).drop (its.head hne).sp0).head? ≠ some ' ' ∧
    itemsBody its = spaces (its.head hne).sp0 ++ (itemsBody its).drop (its.head hne).sp0 := by
  obtain ⟨it, rest, rfl⟩ := List.exists_cons_of_ne_nil hne
  have hi := hv it (by simp)
  have hb : ∃ r, itemsBody (it :: rest) = spaces it.sp0 ++ (itemBody it ++ r) := by
    cases rest with
    | nil => exact ⟨[], by simp [itemsBody]⟩
    | cons it' its => exact ⟨spaces it.sp2 ++ ',' :: itemsBody (it' :: its), by
        simp [itemsBody, item_text_body]⟩
  obtain ⟨r, hr⟩ := hb
  have hd : (itemsBody (it :: rest)).drop it.sp0 = itemBody it ++ r := by
    rw [hr]; simp [spaces, List.drop_append]
  simp only [List.head_cons]
  rw [hd]
  refine ⟨?_, hr⟩
  have := lead_startsWith hi []
  have e : (it.lead 0).text ++ [] = itemBody it ++ spaces it.sp2 := by
    simp [Item.text, Item.lead, itemBody, spaces]
  rw [e] at this
  have hn : itemBody it ≠ [] := by simp [itemBody, cvText_ne_nil]
  rw [startsWith_append_of_ne_nil hn] at this
  cases hb : itemBody it with
  | nil => exact absurd hb hn
  | cons c cs =>
    rw [hb] at this
    simpa using this

end Verif.Semver
