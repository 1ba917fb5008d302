import Verif.Toml.Map
import Verif.Toml.Parse

/-!
# Model of the container for a parsed document (crates/toml/src/container.rs)

Memory is a list of regions: the arenas (`Bump`) that containers allocate, and buffers of the caller. An access to a
region that is not there any more, and freeing one twice, is a fault (undefined behaviour). The references in the
tokens, the tree and the map (`&'static str`, slices of the arena) are modelled by the list of the regions they point to.
What is allocated in an arena besides texts is left out: it has no address of its own, but an allocation needs the arena.
A container can be used only as long as it is not dropped, as the type checker enforces; other calls have no effect.
-/

namespace Verif.Toml.Mem
open Verif Verif.Toml

/-- A region of memory; `arena` tells the arenas from the buffers of the caller. -/
structure Region where
  arena : Bool
  live : Bool
  texts : List Str

/-- A `&'static str`: the region and which of its texts. -/
structure Ptr where
  region : Nat
  index : Nat

/-- `Toml` (crates/toml/src/container.rs:7-12); `refs` are the regions that `tokens`, `asts` and `map` point to. -/
structure Toml where
  input : Ptr
  tokens : Tokens
  asts : Asts
  map : TomlMap.MapTable
  refs : List Nat

/-- `Container` (crates/toml/src/container.rs:15-18). -/
structure Container where
  toml : Toml
  bump : Nat

/-- The memory and the containers, in the order in which they were made; a dropped one is `none`. -/
structure World where
  regions : List Region
  containers : List (Option Container)

/-- How a computation ends. A panic unwinds: the caller may go on. -/
inductive Out (α : Type)
  | ok (a : α) (w : World)
  | panic (w : World)
  | fault

/-- `Box::leak(Box::new(Bump::new()))` (crates/toml/src/container.rs:41, 52). -/
def newBump (w : World) : Nat × World := (w.regions.length, { w with regions := w.regions ++ [⟨true, true, []⟩] })

/-- Is the region there? -/
def World.live (w : World) (r : Nat) : Bool := match w.regions[r]? with
  | some x => x.live
  | none => false

/-- `Bump::alloc_str`. -/
def allocStr (w : World) (r : Nat) (s : Str) : Option (Ptr × World) :=
  match w.regions[r]? with
  | some x => if x.live then some (⟨r, x.texts.length⟩, { w with regions := w.regions.set r { x with texts := x.texts ++ [s] } }) else none
  | none => none

/-- Read a text. -/
def deref (w : World) (p : Ptr) : Option Str :=
  match w.regions[p.region]? with
  | some x => if x.live then x.texts[p.index]? else none
  | none => none

/-- `drop(Box::from_raw(ptr))` (crates/toml/src/container.rs:32-33). -/
def free (w : World) (r : Nat) : Option World :=
  match w.regions[r]? with
  | some x => if x.live then some { w with regions := w.regions.set r { x with live := false } } else none
  | none => none

/-- `build_container` (crates/toml/src/container.rs:71-89). The three phases allocate in the arena and read the input; the tokens,
the tree and the map point to both. -/
def buildContainer (ovf : Bool) (w : World) (bump : Nat) (input : Ptr) : Out Container :=
  if w.live bump then
    match deref w input with
    | none => .fault
    | some text =>
      match lex text with
      | none => .panic w
      | some (T, es) =>
        match parse ovf text T es with
        | .ok a _ =>
          match TomlMap.map a.asts with
          | none => .panic w
          | some (m, _) => .ok ⟨⟨input, T, a, m, [input.region, bump]⟩, bump⟩ w
        | _ => .panic w
  else .fault

/-- `Container::parse` (crates/toml/src/container.rs:40-46). -/
def containerParse (ovf : Bool) (w : World) (input : Str) : Out Container :=
  let (bump, w) := newBump w
  match allocStr w bump input with
  | none => .fault
  | some (p, w) => buildContainer ovf w bump p

/-- What the function given to `parse_with` does: it allocates a text in the arena, or it panics, or it returns a text that it did
not allocate there. -/
inductive AllocInput
  | alloc (s : Str)
  | panic
  | foreign (p : Ptr)

/-- `Container::parse_with` (crates/toml/src/container.rs:48-62). -/
def containerParseWith (ovf : Bool) (w : World) (f : AllocInput) : Out Container :=
  let (bump, w) := newBump w
  match f with
  | .alloc s =>
    match allocStr w bump s with
    | none => .fault
    | some (p, w) => buildContainer ovf w bump p
  | .panic => .panic w
  | .foreign p => buildContainer ovf w bump p

/-- What is seen through `Container::toml` (crates/toml/src/container.rs:64-67): the input, the tokens, the tree and the map; all
memory they point to is read. -/
def containerToml (w : World) (c : Container) : Option (Str × Tokens × Asts × TomlMap.MapTable) :=
  match deref w c.toml.input with
  | none => none
  | some text => if c.toml.refs.all w.live then some (text, c.toml.tokens, c.toml.asts, c.toml.map) else none

/-- `Drop for Container` (crates/toml/src/container.rs:20-36): the document is dropped, which may look at what it points to, and
then the arena is freed. -/
def containerDrop (w : World) (c : Container) : Option World :=
  if c.toml.refs.all w.live then free w c.bump else none

/-- What a program can do with containers and with its own buffers. -/
inductive Op
  | parse (input : Str)
  | parseWith (f : AllocInput)
  | read (i : Nat)
  | drop (i : Nat)
  | newBuffer (s : Str)
  | freeBuffer (r : Nat)

/-- What a call shows. -/
inductive Obs
  | nothing
  | panicked
  | seen (text : Str) (tokens : Tokens) (asts : Asts) (map : TomlMap.MapTable)

/-- The container is put into the next place. -/
def keep : Out Container → Option (World × Obs)
  | .ok c w => some ({ w with containers := w.containers ++ [some c] }, .nothing)
  | .panic w => some (w, .panicked)
  | .fault => none

/-- One call; `none` is a fault. -/
def step (ovf : Bool) (w : World) : Op → Option (World × Obs)
  | .parse input => keep (containerParse ovf w input)
  | .parseWith f => keep (containerParseWith ovf w f)
  | .read i =>
    match w.containers[i]? with
    | some (some c) => (containerToml w c).map fun x => (w, .seen x.1 x.2.1 x.2.2.1 x.2.2.2)
    | _ => some (w, .nothing)
  | .drop i =>
    match w.containers[i]? with
    | some (some c) => (containerDrop w c).map fun w => ({ w with containers := w.containers.set i none }, .nothing)
    | _ => some (w, .nothing)
  | .newBuffer s => some ({ w with regions := w.regions ++ [⟨false, true, [s]⟩] }, .nothing)
  | .freeBuffer r =>
    match w.regions[r]? with
    | some x => if x.arena = false ∧ x.live = true then (free w r).map fun w => (w, .nothing) else some (w, .nothing)
    | none => some (w, .nothing)

/-- A history of calls. -/
def run (ovf : Bool) (w : World) : List Op → Option (World × List Obs)
  | [] => some (w, [])
  | op :: ops =>
    match step ovf w op with
    | none => none
    | some (w, o) => (run ovf w ops).map fun r => (r.1, o :: r.2)

/-- In the beginning there is nothing. -/
def World.empty : World := ⟨[], []⟩

end Verif.Toml.Mem
