import Verif.Diag.JsonLemmas
import Verif.Spec.Fetch
import Verif.Props.Index
import Verif.Props.SemverExact

/-! # Properties C82, C83: the lines of an index file, fetching a crate -/

namespace Verif.Props
open Verif Verif.Index Verif.Spec Verif.Spec.Index Verif.Spec.Fetch Verif.Semver

/-! ## C82 -/

/-- C82: a line of an index file is accepted exactly if it is a JSON text that says everything about the version, and
then the result is what it says.  (`LineSays true` asks for versions and requirements of the grammar of C19; a build
without overflow checks accepts in addition those with the wrapped numbers of `C19_version_exact`.) -/
theorem C82_line (ovf : Bool) (reader : Str → Option Json) (l : Str) (v : RawVersion) :
    fromStr ovf reader l = .ok v ↔ ∃ j, reader l = some j ∧ LineSays ovf j v := by
  unfold fromStr
  cases h : reader l with
  | none => simp
  | some j => simp [getLine_ok]

/-- C82: every build accepts such a line, with the same result. -/
theorem C82_every_build (ovf : Bool) (reader : Str → Option Json) {l : Str} {j : Json} {v : RawVersion}
    (h : reader l = some j) (hs : LineSays true j v) : fromStr ovf reader l = .ok v := by
  unfold fromStr
  rw [h]
  exact extends_line _ _ (getLine_ok.2 hs)

/-- C82: a line says at most one thing. -/
theorem C82_unique {ovf : Bool} {j : Json} {v w : RawVersion} (hv : LineSays ovf j v) (hw : LineSays ovf j w) : v = w := by
  have h1 := getLine_ok.2 hv
  rw [getLine_ok.2 hw] at h1
  cases h1
  rfl

/-- C82: without overflow checks, reading a line never panics. -/
theorem C82_no_panic (reader : Str → Option Json) (l : Str) : fromStr false reader l ≠ .panic := by
  unfold fromStr
  split
  · simp
  · exact calm_line _

/-- C82: entries that are not known are ignored, wherever they are. -/
theorem C82_unknown {ovf : Bool} {a b : Entries} {k : Str} {plain : Bool} {x : Json} {v : RawVersion}
    (hk : k ∉ ["name", "vers", "features", "features2", "deps", "yanked", "rust_version"].map String.toList) :
    LineSays ovf (.obj (a ++ ((k, plain), x) :: b)) v ↔ LineSays ovf (.obj (a ++ b)) v := by
  have h1 : ∀ {k' : Str}, k ≠ k' → (Absent (a ++ ((k, plain), x) :: b) k' ↔ Absent (a ++ b) k') := by
    intro k' hne
    simp only [Absent, List.mem_append, List.mem_cons]
    constructor
    · rintro h e (he | he)
      · exact h e (.inl he)
      · exact h e (.inr (.inr he))
    · rintro h e (he | rfl | he)
      · exact h e (.inl he)
      · exact hne
      · exact h e (.inr he)
  have h2 : ∀ {k' : Str} {y : Json}, k ≠ k' → (Only (a ++ ((k, plain), x) :: b) k' y ↔ Only (a ++ b) k' y) := by
    intro k' y hne
    induction a with
    | nil => exact only_cons_ne hne
    | cons e a ih =>
      rw [List.cons_append, List.cons_append]
      by_cases he : e.1.1 = k'
      · obtain ⟨⟨k'', pl⟩, z⟩ := e
        dsimp only at he
        subst he
        rw [only_cons_eq, only_cons_eq]
        have : Absent (a ++ ((k, plain), x) :: b) k'' ↔ Absent (a ++ b) k'' := by
          simp only [Absent, List.mem_append, List.mem_cons]
          constructor
          · rintro h e (he | he)
            · exact h e (.inl he)
            · exact h e (.inr (.inr he))
          · rintro h e (he | rfl | he)
            · exact h e (.inl he)
            · exact hne
            · exact h e (.inr he)
        rw [this]
      · rw [only_cons_ne he, only_cons_ne he]
        refine ih ?_
        intro k' hne
        simp only [Absent, List.mem_append, List.mem_cons]
        constructor
        · rintro h e (he | he)
          · exact h e (.inl he)
          · exact h e (.inr (.inr he))
        · rintro h e (he | rfl | he)
          · exact h e (.inl he)
          · exact hne
          · exact h e (.inr he)
  have hh : ∀ {α : Type} {i : Nat} {k' : String} {p : Json → α → Prop} {y : α}, k ≠ k'.toList →
      (Has (.obj (a ++ ((k, plain), x) :: b)) i k' p y ↔ Has (.obj (a ++ b)) i k' p y) := by
    intro α i k' p y hne
    simp only [Has, FieldIs, h2 hne]
  have ho : ∀ {α : Type} {i : Nat} {k' : String} {p : Json → α → Prop} {d y : α}, k ≠ k'.toList →
      (HasOr (.obj (a ++ ((k, plain), x) :: b)) i k' p d y ↔ HasOr (.obj (a ++ b)) i k' p d y) := by
    intro α i k' p d y hne
    simp only [HasOr, hh hne, FieldMissing, h1 hne]
  simp only [List.map_cons, List.map_nil, List.mem_cons, List.not_mem_nil, or_false, not_or] at hk
  obtain ⟨n0, n1, n2, n3, n4, n5, n6⟩ := hk
  constructor
  · rintro ⟨-, h0, h1, h2, h3, h4, h5, h6⟩
    exact ⟨trivial, (hh n0).1 h0, (hh n1).1 h1, (hh n2).1 h2, (ho n3).1 h3, (hh n4).1 h4, (hh n5).1 h5,
      (ho n6).1 h6⟩
  · rintro ⟨-, h0, h1, h2, h3, h4, h5, h6⟩
    exact ⟨trivial, (hh n0).2 h0, (hh n1).2 h1, (hh n2).2 h2, (ho n3).2 h3, (hh n4).2 h4, (hh n5).2 h5,
      (ho n6).2 h6⟩

/-- C56, C82: an index file is accepted exactly if it has at least one line, every line says everything about a
version, and all have the same name; then the crate has exactly the versions the lines describe, in order. -/
theorem C82_file (ovf : Bool) (reader : Str → Option Json) (text : Str) (c : Crate) :
    parseCrate (fromStr ovf reader) text = .ok c ↔
    ∃ ls, ∃ raws : List RawVersion, ∃ vs, FileLines text ls ∧ ls.length = raws.length ∧
      (∀ (i : Nat) l raw, ls[i]? = some l → raws[i]? = some raw → ∃ j, reader l = some j ∧ LineSays ovf j raw) ∧
      raws ≠ [] ∧ (∀ raw ∈ raws, raw.name = c.name) ∧
      vs.length = raws.length ∧
      (∀ (i : Nat) raw v, raws[i]? = some raw → vs[i]? = some v → Describes raw v) ∧
      StableSorted (fun a b => versionCmp a.vers b.vers) vs c.versions := by
  rw [C56_parse]
  have key : ∀ (ls : List Str) (raws : List RawVersion), ls.map (fromStr ovf reader) = raws.map .ok ↔
      ls.length = raws.length ∧
      (∀ (i : Nat) l raw, ls[i]? = some l → raws[i]? = some raw → ∃ j, reader l = some j ∧ LineSays ovf j raw) := by
    intro ls
    induction ls with
    | nil => intro raws; cases raws <;> simp
    | cons l ls ih =>
      intro raws
      cases raws with
      | nil => simp
      | cons r raws =>
        simp only [List.map_cons, List.cons.injEq, ih, C82_line, List.length_cons, Nat.add_right_cancel_iff]
        constructor
        · rintro ⟨h1, h2, h3⟩
          refine ⟨h2, fun i => ?_⟩
          cases i with
          | zero => intro l' r' e1 e2; cases e1; cases e2; exact h1
          | succ i => exact h3 i
        · rintro ⟨h1, h2⟩
          exact ⟨h2 0 _ _ rfl rfl, h1, fun i => h2 (i + 1)⟩
  constructor
  · rintro ⟨ls, raws, vs, h1, h2, h3⟩
    exact ⟨ls, raws, vs, h1, ((key _ _).1 h2).1, ((key _ _).1 h2).2, h3⟩
  · rintro ⟨ls, raws, vs, h1, h2, h2', h3⟩
    exact ⟨ls, raws, vs, h1, (key _ _).2 ⟨h2, h2'⟩, h3⟩

/-! ## C83 -/

/-- C57: the URL of the specification, and the memory is reserved exactly. -/
theorem C57_index_url {name : Str} (hne : name ≠ []) (ha : ∀ c ∈ name, c.utf8Size = 1) :
    sparseIndexUrl .cratesIo name = some (blen (indexUrl name), indexUrl name) := by
  obtain ⟨url, h1, h2⟩ := C57_url hne ha
  have : url = indexUrl name := by
    refine h2.trans ?_
    unfold indexUrl
    generalize "https://index.crates.io/".toList = A
    rw [List.append_assoc]
    refine congrArg (A ++ ·) ?_
    clear h1 h2 url
    rcases name with _ | ⟨a, _ | ⟨b, _ | ⟨c, _ | ⟨d, r⟩⟩⟩⟩
    · exact absurd rfl hne
    · rfl
    · rfl
    · rfl
    · dsimp only [indexPath]
      simp only [List.cons_append, List.nil_append]
  rw [h1, this]

theorem decode_some {body : ByteArray} {cs : Array Char} :
    body.utf8Decode? = some cs ↔ body = cs.toList.utf8Encode := by
  constructor
  · intro h
    have := ByteArray.utf8Encode_get_utf8Decode? (b := body) (h := by rw [h]; rfl)
    simp only [h, Option.get_some] at this
    exact this.symm
  · rintro rfl
    rw [List.utf8Decode?_utf8Encode]

theorem decode_none {body : ByteArray} : body.utf8Decode? = none ↔ ∀ text : Str, body ≠ text.utf8Encode := by
  constructor
  · rintro h text rfl
    rw [List.utf8Decode?_utf8Encode] at h
    cases h
  · intro h
    cases hd : body.utf8Decode? with
    | none => rfl
    | some cs => exact absurd (decode_some.1 hd) (h _)

section
variable {ovf : Bool} {reader : Str → Option Json} {uriOk : Str → Bool} {send : Str → Response} {name : Str}

theorem fetchFromUrl_answer {url : Str} (hu : uriOk url = true) {x : Res FetchErr Crate} :
    fetchFromUrl ovf reader uriOk send url = x ↔ Answer ovf reader (send url) x := by
  unfold fetchFromUrl
  rw [if_pos hu]
  constructor
  · rintro rfl
    cases hs : send url with
    | failed => exact .request
    | status code body =>
      simp only
      by_cases hc : isSuccess code = true
      · rw [hc, if_neg (by simp)]
        simp only [isSuccess, Bool.and_eq_true, decide_eq_true_eq] at hc
        cases hd : body.utf8Decode? with
        | none => exact .utf8 hc.1 (by omega) (decode_none.1 hd)
        | some cs =>
          have := decode_some.1 hd
          simp only
          cases hp : parseCrate (fromStr ovf reader) cs.toList with
          | ok c => exact .ok hc.1 (by omega) this hp
          | err e =>
            cases e with
            | json => exact .json hc.1 (by omega) this hp
            | noVersion => exact .noVersion hc.1 (by omega) this hp
            | mismatchedNames => exact .mismatchedNames hc.1 (by omega) this hp
          | panic => exact .panic hc.1 (by omega) this hp
      · have hf : isSuccess code = false := by simpa using hc
        rw [hf, if_pos (by rfl)]
        have hn : ¬ (200 ≤ code ∧ code ≤ 299) := by
          simp only [isSuccess, Bool.and_eq_true, decide_eq_true_eq] at hc
          omega
        split
        · next h => subst h; exact .notFound
        · next h => exact .status hn h
  · have hsucc : ∀ {code : Nat}, 200 ≤ code → code ≤ 299 → isSuccess code = true := by
      intro code h1 h2
      simp only [isSuccess, Bool.and_eq_true, decide_eq_true_eq]
      omega
    generalize send url = r
    intro h
    cases h with
    | request => rfl
    | notFound => simp [isSuccess]
    | @status code _ h1 h2 =>
      have hf : isSuccess code = false := by
        cases hc : isSuccess code with
        | false => rfl
        | true =>
          simp only [isSuccess, Bool.and_eq_true, decide_eq_true_eq] at hc
          omega
      simp [hf, h2]
    | utf8 h1 h2 h3 => simp [hsucc h1 h2, decode_none.2 h3]
    | ok h1 h2 h3 h4 => subst h3; simp [hsucc h1 h2, List.utf8Decode?_utf8Encode, h4]
    | json h1 h2 h3 h4 => subst h3; simp [hsucc h1 h2, List.utf8Decode?_utf8Encode, h4, FetchErr.ofParse]
    | noVersion h1 h2 h3 h4 => subst h3; simp [hsucc h1 h2, List.utf8Decode?_utf8Encode, h4, FetchErr.ofParse]
    | mismatchedNames h1 h2 h3 h4 => subst h3; simp [hsucc h1 h2, List.utf8Decode?_utf8Encode, h4, FetchErr.ofParse]
    | panic h1 h2 h3 h4 => subst h3; simp [hsucc h1 h2, List.utf8Decode?_utf8Encode, h4]

/-- C83: fetching a crate asks for its URL, and the outcome is the one for the response; an error tells the name
of the crate and the URL. -/
theorem C83_fetch (hne : name ≠ []) (ha : ∀ c ∈ name, c.utf8Size = 1) (hu : uriOk (indexUrl name) = true)
    (x : Res FetchError Crate) :
    fetchCrate ovf reader uriOk send .cratesIo name = x ↔
      (∃ c, x = .ok c ∧ Answer ovf reader (send (indexUrl name)) (.ok c)) ∨
      (∃ k, x = .err ⟨name, indexUrl name, k⟩ ∧ Answer ovf reader (send (indexUrl name)) (.err k)) ∨
      (x = .panic ∧ Answer ovf reader (send (indexUrl name)) .panic) := by
  simp only [← fetchFromUrl_answer (uriOk := uriOk) hu]
  unfold fetchCrate
  rw [C57_index_url hne ha]
  simp only
  cases fetchFromUrl ovf reader uriOk send (indexUrl name) with
  | ok c => simp [eq_comm]
  | err k => simp [eq_comm]
  | panic => simp [eq_comm]

/-- C83: a crate is returned exactly if the server answers with success and a text that is an index file
(`C82_file`). -/
theorem C83_ok (hne : name ≠ []) (ha : ∀ c ∈ name, c.utf8Size = 1) (hu : uriOk (indexUrl name) = true) (c : Crate) :
    fetchCrate ovf reader uriOk send .cratesIo name = .ok c ↔
      ∃ code, ∃ text : Str, 200 ≤ code ∧ code ≤ 299 ∧ send (indexUrl name) = .status code text.utf8Encode ∧
        parseCrate (fromStr ovf reader) text = .ok c := by
  rw [C83_fetch hne ha hu]
  simp only [Res.ok.injEq, reduceCtorEq, false_and, exists_const, or_false, exists_eq_left', exists_false]
  constructor
  · generalize send (indexUrl name) = r
    intro h
    cases h with
    | ok h1 h2 h3 h4 => subst h3; exact ⟨_, _, h1, h2, rfl, h4⟩
  · rintro ⟨code, text, h1, h2, h3, h4⟩
    rw [h3]
    exact .ok h1 h2 rfl h4

theorem crateLoop_calm {json : Str → Res Unit RawVersion} (h : ∀ l, json l ≠ .panic) :
    ∀ ls n vs, crateLoop json n vs ls ≠ .panic
  | [], n, vs => by simp [crateLoop]
  | l :: ls, n, vs => by
    rw [crateLoop]
    split
    · next hp => exact absurd hp (h l)
    · simp
    · split
      · split
        · simp
        · exact crateLoop_calm h ls _ _
      · exact crateLoop_calm h ls _ _

/-- C83: without overflow checks, fetching never panics, whatever the server answers. -/
theorem C83_no_panic (hne : name ≠ []) (ha : ∀ c ∈ name, c.utf8Size = 1) (hu : uriOk (indexUrl name) = true) :
    fetchCrate false reader uriOk send .cratesIo name ≠ .panic := by
  intro h
  rw [C83_fetch hne ha hu] at h
  rcases h with ⟨c, h, -⟩ | ⟨k, h, -⟩ | ⟨-, h⟩
  · cases h
  · cases h
  · generalize send (indexUrl name) = r at h
    cases h with
    | panic h1 h2 h3 h4 =>
      unfold parseCrate at h4
      split at h4
      · next hp => exact crateLoop_calm (C82_no_panic reader) _ _ _ hp
      · cases h4
      · simp only at h4
        split at h4 <;> cases h4

end

/-! ## C84 -/

/-- C84: every version that is accepted, in any build, can be serialized, and every build reads the same version
back. -/
theorem C84_version {ovf ovf' : Bool} {text : Str} {pos : Pos} {v : Semver.Version}
    (h : parseVersion ovf text pos = .ok v) : (serializeVersion v).getVersion ovf' = .ok v :=
  toSerde_ok.2 (C15_version_display_parse ovf ovf' text pos .ZERO v h)

/-- C84: every requirement that a build with overflow checks accepts can be serialized, to the very text, and every
build reads the same requirement back; only its place is the start of the text. -/
theorem C84_requirement {ovf : Bool} {text : Str} {pos : Pos} {r : Semver.VersionReq}
    (h : parseRequirement true text pos = .ok r) :
    ∃ j, serializeReq r = some j ∧ IsString j text ∧ j.getReq ovf = .ok { r with pos := .ZERO } := by
  have hd := C17_requirement_display_lossless_partial true text pos r (.inl rfl) h
  refine ⟨.str true text, by rw [serializeReq, hd]; rfl, ⟨_, rfl⟩, ?_⟩
  refine toSerde_ok.2 ?_
  have h0 := (C25_shift_invariance true text pos .ZERO).1 r h
  exact parseRequirement_complete _ _ _ _ (parseRequirement_sound _ _ _ h0)

/-- C84, for every text and build: every requirement that was read can be serialized, and every build reads the same
requirement back; only its place is the start of the text. -/
theorem C84_requirement_every_build {ovf ovf' : Bool} {text : Str} {pos : Pos} {r : Semver.VersionReq}
    (h : parseRequirement ovf text pos = .ok r) :
    ∃ j t, serializeReq r = some j ∧ IsString j t ∧ t.length = text.length ∧
      j.getReq ovf' = .ok { r with pos := .ZERO } := by
  obtain ⟨t, hd, hl, hp⟩ := C17_display_parse ovf ovf' text pos .ZERO r h
  exact ⟨.str true t, t, by rw [serializeReq, hd]; rfl, ⟨_, rfl⟩, hl, toSerde_ok.2 hp⟩

example : (serializeVersion ⟨1, 2, 3, "rc.1".toList, []⟩).getVersion false = .ok ⟨1, 2, 3, "rc.1".toList, []⟩ :=
  C84_version (ovf := true) (text := " 1.2.3-rc.1 ".toList) (pos := .ZERO) (by decide)

example : ∃ r, parseRequirement true " >=1 , <2 ".toList ⟨3, 4⟩ = .ok r ∧ r.pos = ⟨3, 4⟩ ∧
    serializeReq r = some (.str true " >=1 , <2 ".toList) := ⟨_, by rfl, by rfl, by rfl⟩

/-! ## The premises are met -/

/-- An entry of an object. -/
def ent (k : String) (j : Json) : (Str × Bool) × Json := ((k.toList, true), j)

/-- A string. -/
def txt (s : String) : Json := .str true s.toList

/-- A dependency. -/
def sampleDep : Json := .obj [ent "name" (txt "serde"), ent "req" (txt "^1.0"), ent "features" (.arr [txt "derive"]),
  ent "optional" (.bool true), ent "default_features" (.bool false), ent "target" .null, ent "kind" (txt "normal")]

/-- The entries of a line. -/
def sampleEntries : Entries := [ent "name" (txt "a"), ent "vers" (txt "1.2.0"), ent "deps" (.arr [sampleDep]),
  ent "cksum" (txt "00"), ent "features" (.obj [ent "std" (.arr [txt "serde"]), ent "std" (.arr [])]),
  ent "yanked" (.bool false)]

/-- What it says. -/
def sampleRaw : RawVersion := ⟨"a".toList, ⟨1, 2, 0, [], []⟩, [("std".toList, [])], [],
  [⟨"serde".toList, none, ⟨.ZERO, 4, [⟨0, .cr, 1, .minor 1 0 none, none⟩]⟩, false, ["derive".toList], .normal, none,
    true⟩], false, none⟩

example : LineSays true (.obj sampleEntries) sampleRaw := getLine_ok.1 (by decide +kernel)

/-- The same as an array. -/
def sampleArray : Json := .arr [txt "a", txt "1.2.0", .obj [ent "std" (.arr [])], .obj [], .arr [sampleDep],
  .bool false, .null]

example : LineSays true sampleArray sampleRaw := getLine_ok.1 (by decide +kernel)

/-- Refused: a field twice, a missing field, an escape sequence in a name, a version of Rust with two numbers. -/
example : (∀ v, ¬ LineSays true (.obj (ent "yanked" (.bool true) :: sampleEntries)) v) ∧
    (∀ v, ¬ LineSays true (.obj sampleEntries.tail) v) ∧
    (∀ v, ¬ LineSays true (.obj (ent "name" (.str false "a".toList) :: sampleEntries.tail)) v) ∧
    (∀ v, ¬ LineSays true (.obj (ent "rust_version" (txt "1.56") :: sampleEntries)) v) := by
  have key : ∀ j : Json, j.getLine true = .err () → ∀ v, ¬ LineSays true j v := by
    intro j h v hv
    rw [getLine_ok.2 hv] at h
    cases h
  exact ⟨key _ (by decide +kernel), key _ (by decide +kernel), key _ (by decide +kernel), key _ (by decide +kernel)⟩

/-- A reader that knows one line. -/
def sampleReader (l : Str) : Option Json := if l = "{1}".toList then some (.obj sampleEntries) else none

/-- The crate of that line. -/
def sampleCrate : Crate := ⟨"a".toList, [⟨⟨1, 2, 0, [], []⟩, false, none, none, [("std".toList, [])], sampleRaw.deps⟩]⟩

example : parseCrate (fromStr true sampleReader) "{1}\n".toList = .ok sampleCrate := by decide +kernel

/-- A server that has the crate `a`. -/
noncomputable def sampleServer (url : Str) : Response :=
  if url = "https://index.crates.io/1/a".toList then .status 200 "{1}\n".toList.utf8Encode
  else if url = "https://index.crates.io/1/b".toList then .status 404 .empty
  else .status 503 .empty

example : fetchCrate true sampleReader (fun _ => true) sampleServer .cratesIo "a".toList = .ok sampleCrate := by
  refine (C83_ok (by decide) (by decide) rfl _).2 ⟨200, "{1}\n".toList, by decide, by decide, ?_, by decide +kernel⟩
  unfold sampleServer
  rw [if_pos (by decide)]

example : fetchCrate true sampleReader (fun _ => true) sampleServer .cratesIo "b".toList =
    .err ⟨"b".toList, "https://index.crates.io/1/b".toList, .notFound⟩ := by decide +kernel

example : fetchCrate true sampleReader (fun _ => true) sampleServer .cratesIo "serde".toList =
    .err ⟨"serde".toList, "https://index.crates.io/se/rd/serde".toList, .status 503⟩ := by decide +kernel

end Verif.Props
