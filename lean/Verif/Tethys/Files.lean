import Verif.Tethys.Scheme
import Verif.Vec.Model

/-!
# The files of a Tethys database

Model of `lib/include/sse/schemes/tethys/tethys_store_builder.hpp` and `tethys_builder.hpp` with what is on
disk: the table, which is an on-disk vector (`Verif.Vec`), the stash file and the counter database. A builder
may find them not empty. Writes do not fail; what was written is kept when the process stops.
-/

namespace Verif.Tethys

/-- The table file, the stash file and the counter database; an absent table is as an empty one (`open_fd`
has `O_CREAT`, utils.cpp L160-190). -/
structure Disk (W : Type) where
  table : List UInt8
  stash : Option (List UInt8)
  counters : Map W UInt32

/-- The exceptions of the vector -/
def ofVError : Vec.VError → Fault
  | .invalidArgument => .invalidArgument
  | .runtimeError => .runtimeError

/-- A page, as an array of the type `payload_type` (tethys_store_builder.hpp L45) -/
def toVal (page : Nat) (p : List UInt8) : Vec.Val page := Vector.ofFn (fun i => p.getD i.val 0)

/-- The loop of `build` on the given vertices, with the writing of the pages (tethys_store_builder.hpp
L192-269) -/
def pushPages (enc : ValueEncoder) (page : Nat) (g : Graph) (data : List (CoreKey × List Index)) :
    List Nat → Vec.Vec page → Vec.Vec page × Except Fault Unit
  | [], t => (t, .ok ())
  | v :: vs, t => match encodeBucket enc page g data v with
    | .error f => (t, .error f)
    | .ok p => match t.pushBack (toVal page p) page with
      | (t, .error e) => (t, .error (ofVError e))
      | (t, .ok pos) => if pos ≠ v then (t, .error .runtimeError) else pushPages enc page g data vs t

/-- The table as opened and reserved by `build` (tethys_store_builder.hpp L180-182) -/
def Builder.tableFile (b : Builder) (file : List UInt8) : Vec.Vec b.page :=
  (Vec.Vec.open b.page file true false).reserve b.size

/-- `TethysStoreBuilder::build` (tethys_store_builder.hpp L161-310), with the table and the stash file
before and after the call. After an exception, the destructor of the vector closes the table, and
`is_built` is not set. -/
def Builder.buildFiles (b : Builder) (enc : ValueEncoder) (file : List UInt8) (stash : Option (List UInt8)) :
    Builder × (List UInt8 × Option (List UInt8)) × Except Fault Unit :=
  if b.built then (b, (file, stash), .error .runtimeError)
  else
    let t := b.tableFile file
    match b.alloc.allocate with
    | .error f => (b, (t.destroy, stash), .error f)
    | .ok a =>
      let b' := { b with alloc := a }
      match pushPages enc b.page a.graph b.data (List.range b.size) t with
      | (t, .error f) => (b', (t.destroy, stash), .error f)
      | (t, .ok ()) =>
        if a.stashed = [] then ({ b' with built := true }, (t.commit.destroy, stash), .ok ())
        else match serializeStash a.graph.edges b.data (setOrder a.graph.edges a.stashed) with
          | .error f => (b', (t.commit.destroy, some []), .error f)
          | .ok s => ({ b' with built := true }, (t.commit.destroy, some s), .ok ())

/-- The table when the process stops in `build` after `k` calls of `push_back` -/
def Builder.stopFile (b : Builder) (enc : ValueEncoder) (file : List UInt8) (k : Nat) : List UInt8 :=
  if b.built then file
  else match b.alloc.allocate with
    | .error _ => (b.tableFile file).file
    | .ok a =>
      (pushPages enc b.page a.graph b.data ((List.range b.size).take k) (b.tableFile file)).1.file

/-- What a user does with a database and its builders, one process after the other -/
inductive Ev (W : Type) where
  /-- a new builder for a table of `n` pages (tethys_builder.hpp L51-59) -/
  | new (n : Nat)
  /-- `insert_list` (tethys_builder.hpp L79-125) -/
  | insert (w : W) (ids : List Index)
  /-- `build` (tethys_builder.hpp L69-75) -/
  | build
  /-- the process stops, or the builder is destroyed -/
  | kill
  /-- the process stops in `build`, before the stash file is opened -/
  | killBuild (k : Nat)
  /-- the user removes the table -/
  | removeTable

/-- What is on disk and the builder, if there is one -/
structure Sys (W : Type) where
  disk : Disk W
  builder : Option Builder

/-- The parameters of a database -/
structure Params (W : Type) where
  page : Nat
  hash : CoreKey → UInt64 × UInt64
  prf : W → Token
  H : List UInt8 → CoreKey
  enc : ValueEncoder

variable {W : Type} [DecidableEq W]

/-- One event, and the exception it raises; events on a builder that does not exist do nothing. -/
def Sys.step (P : Params W) (s : Sys W) : Ev W → Sys W × Except Fault Unit
  | .new n => match Builder.new P.page n P.hash with
    | .error f => (⟨s.disk, none⟩, .error f)
    | .ok b => (⟨s.disk, some b⟩, .ok ())
  | .kill => (⟨s.disk, none⟩, .ok ())
  | .removeTable => (⟨{ s.disk with table := [] }, s.builder⟩, .ok ())
  | .insert w ids => match s.builder with
    | none => (s, .ok ())
    | some b =>
      let r := (SchemeBuilder.mk b s.disk.counters).insertList P.prf P.H w ids
      (⟨{ s.disk with counters := r.1.counters }, some r.1.store⟩, r.2)
  | .build => match s.builder with
    | none => (s, .ok ())
    | some b =>
      let r := b.buildFiles P.enc s.disk.table s.disk.stash
      (⟨⟨r.2.1.1, r.2.1.2, s.disk.counters⟩, some r.1⟩, r.2.2)
  | .killBuild k => match s.builder with
    | none => (s, .ok ())
    | some b => (⟨{ s.disk with table := b.stopFile P.enc s.disk.table k }, none⟩, .ok ())

/-- Events, and their outcomes -/
def Sys.run (P : Params W) : Sys W → List (Ev W) → Sys W × List (Except Fault Unit)
  | s, [] => (s, [])
  | s, e :: es =>
    let r := s.step P e
    let q := Sys.run P r.1 es
    (q.1, r.2 :: q.2)

/-- The pages of a table file, as `get` reads them (see `pagesOf_get`) -/
def pagesOf (page : Nat) (file : List UInt8) : List (List UInt8) :=
  (List.range (file.length / page)).map (fun i => (file.drop (i * page)).take page)

/-- A search by a client and a server that open these files: an empty table is refused
(tethys_store.hpp L57-59, L128-130). -/
def Disk.search {W : Type} (P : Params W) (d : Disk W) (w : W) : Except Fault (List Index) :=
  if d.table = [] then .error .runtimeError
  else schemeSearch P.hash P.prf P.H P.enc ⟨pagesOf P.page d.table, d.stash⟩ d.counters w

/-- The events of a build: a new builder, the insertion of an index, `build` -/
def buildEvents {W : Type} (n : Nat) (index : List (W × List Index)) : List (Ev W) :=
  .new n :: (index.map (fun x => .insert x.1 x.2) ++ [.build])

end Verif.Tethys
