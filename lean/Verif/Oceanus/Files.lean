import Verif.Oceanus.Cuckoo
import Verif.Vec.Model
import Verif.Pluto.Model

/-!
# The files of an Oceanus database

Model of `lib/include/sse/schemes/oceanus/oceanus.hpp` and `cuckoo.hpp` with the two files of a database: the
temporary file of the values (`path.tmp`) and the table (`path`). Both are on-disk vectors (`Verif.Vec`), that a
process may find not empty when it starts. Writes do not fail; the default scheduler is not null
(`make_default_aio_scheduler`, scheduler.cpp L28-37); what was written is kept when the process stops.
-/

namespace Verif.Oceanus

variable {n : Nat}

/-- The contents of the two files; an absent file is as an empty one (`open_fd` has `O_CREAT`,
utils.cpp L160-190). -/
structure Disk where
  tmp : List UInt8
  table : List UInt8
deriving DecidableEq

/-- The exceptions of the vector -/
def ofVError : Vec.VError → Fault
  | .invalidArgument => .invalidArgument
  | .runtimeError => .runtimeError

/-- `CuckooBuilder` (cuckoo.hpp L31-69) with its data file -/
structure FBuilder (n : Nat) where
  hash : Key → CKey
  alloc : Alloc
  data : Vec.Vec (16 + n)
  spilled : List UInt64
  committed : Bool

/-- `CuckooBuilder(p)` (cuckoo.hpp L117-124), called by `OceanusBuilder` (oceanus.hpp L125-137) -/
def FBuilder.open (n : Nat) (hash : Key → CKey) (size depth max : Nat) (d : Disk) : FBuilder n × Disk :=
  let data := (Vec.Vec.open (16 + n) d.tmp true false).reserve max
  (⟨hash, Alloc.new size depth, data, [], false⟩, { d with tmp := data.file })

/-- `CuckooBuilder::insert` (cuckoo.hpp L147-178): the builder and the files are also given after an
exception. -/
def FBuilder.insert (b : FBuilder n) (d : Disk) (key : Key) (val : Vector UInt8 n) :
    FBuilder n × Disk × Except Fault Unit :=
  if b.committed then (b, d, .error .runtimeError)
  else match b.data.pushBack (key ++ val) (16 + n) with
    | (data, .error e) => ({ b with data := data }, { d with tmp := data.file }, .error (ofVError e))
    | (data, .ok pos) => match b.alloc.insert (b.hash key) (UInt64.ofNat pos) with
      | .error f => ({ b with data := data }, { d with tmp := data.file }, .error f)
      | .ok (a, spill) =>
        ({ b with alloc := a, data := data,
                  spilled := if spill = emptyIndex then b.spilled else b.spilled ++ [spill] },
          { d with tmp := data.file }, .ok ())

/-- The two loops of `commit` (cuckoo.hpp L217-238) -/
def pushCells (data : Vec.Vec (16 + n)) : List Cell → Vec.Vec (16 + n) → Vec.Vec (16 + n) × Except Fault Unit
  | [], t => (t, .ok ())
  | c :: cs, t =>
    match (if c.full = false then Except.ok (Vector.replicate (16 + n) 255) else data.get c.index.toNat) with
    | .error e => (t, .error (ofVError e))
    | .ok p => match t.pushBack p (16 + n) with
      | (t', .error e) => (t', .error (ofVError e))
      | (t', .ok _) => pushCells data cs t'

/-- The table file as opened and reserved by `commit` (cuckoo.hpp L204-212) -/
def FBuilder.tableFile (b : FBuilder n) (d : Disk) : Vec.Vec (16 + n) :=
  (Vec.Vec.open (16 + n) d.table true false).reserve (2 * b.alloc.size)

/-- `CuckooBuilder::commit` (cuckoo.hpp L186-243). After an exception the table is closed, the builder is
committed, and the data file stays. -/
def FBuilder.commit (b : FBuilder n) (d : Disk) : FBuilder n × Disk × Except Fault Unit :=
  if b.committed then (b, d, .ok ())
  else
    let b' := { b with committed := true, data := b.data.commit }
    match pushCells b'.data (b.alloc.t0 ++ b.alloc.t1) (b.tableFile d) with
    | (t, .error f) => (b', ⟨b'.data.file, t.destroy⟩, .error f)
    | (t, .ok ()) => (b', ⟨[], t.commit.destroy⟩, .ok ())

/-- The files when the process stops in `commit` after `k` calls of `push_back` -/
def FBuilder.stop (b : FBuilder n) (d : Disk) (k : Nat) : Disk :=
  if b.committed then d
  else ⟨b.data.commit.file,
    (pushCells b.data.commit ((b.alloc.t0 ++ b.alloc.t1).take k) (b.tableFile d)).1.file⟩

/-- What a user does with the builder of a database, one process after the other -/
inductive Ev (n : Nat) where
  /-- a new builder, with its table size, depth and maximal number of elements -/
  | new (size depth max : Nat)
  | insert (key : Key) (val : Vector UInt8 n)
  | commit
  /-- the destructor (cuckoo.hpp L132-138, oceanus.hpp L139-143): commits -/
  | destroy
  /-- the process stops, outside of `commit` -/
  | kill
  /-- the process stops in `commit` -/
  | killCommit (k : Nat)

/-- The files and the builder, if there is one -/
structure Sys (n : Nat) where
  disk : Disk
  builder : Option (FBuilder n)

/-- One event and the exception it raises; events on a builder that does not exist do nothing. An
exception in the destructor ends the process. -/
def Sys.step (hash : Key → CKey) (s : Sys n) : Ev n → Sys n × Except Fault Unit
  | .new size depth max =>
    let r := FBuilder.open n hash size depth max s.disk
    (⟨r.2, some r.1⟩, .ok ())
  | .kill => (⟨s.disk, none⟩, .ok ())
  | e => match s.builder with
    | none => (s, .ok ())
    | some b => match e with
      | .insert k v => let r := b.insert s.disk k v; (⟨r.2.1, some r.1⟩, r.2.2)
      | .commit => let r := b.commit s.disk; (⟨r.2.1, some r.1⟩, r.2.2)
      | .destroy => let r := b.commit s.disk; (⟨r.2.1, none⟩, r.2.2)
      | .killCommit k => (⟨b.stop s.disk k, none⟩, .ok ())
      | _ => (s, .ok ())

/-- Events, and their outcomes -/
def Sys.run (hash : Key → CKey) : Sys n → List (Ev n) → Sys n × List (Except Fault Unit)
  | s, [] => (s, [])
  | s, e :: es =>
    let r := s.step hash e
    let q := Sys.run hash r.1 es
    (q.1, r.2 :: q.2)

/-! ## Lookups -/

/-- `CuckooHashTable` (cuckoo.hpp L251-301) on its file -/
structure FTable (n : Nat) where
  hash : Key → CKey
  table : Vec.Vec (16 + n)
  size : Nat

/-- `CuckooHashTable(path)` (cuckoo.hpp L309-330), `Oceanus(db_path)` (oceanus.hpp L195-199) -/
def FTable.open (n : Nat) (hash : Key → CKey) (file : List UInt8) : Except Fault (FTable n) :=
  let v := Vec.Vec.open (16 + n) file true false
  if v.committed = false then .error .runtimeError
  else if v.size % 2 ≠ 0 then .error .runtimeError
  else .ok ⟨hash, v, v.size / 2⟩

/-- `CuckooHashTable::get` (cuckoo.hpp L339-367), `Oceanus::get` (oceanus.hpp L206-221) -/
def FTable.get (t : FTable n) (key : Key) : Except Fault (Vector UInt8 n) :=
  if t.size = 0 then .error .divByZero
  else match t.table.get ((t.hash key).h0.toNat % t.size) with
    | .error e => .error (ofVError e)
    | .ok p0 =>
      if matchKey p0 key then .ok (valueOf p0)
      else match t.table.get ((t.hash key).h1.toNat % t.size + t.size) with
        | .error e => .error (ofVError e)
        | .ok p1 => if matchKey p1 key then .ok (valueOf p1) else .error .outOfRange

/-- `OceanusContentSerializer::serialize` (oceanus.hpp L54-62): the same copy as in Pluto -/
def ocSerialize {N : Nat} (v : Vector Index N) : Vector UInt8 (8 * N) := Pluto.serializeValue v

/-- `OceanusContentSerializer::deserialize` (oceanus.hpp L64-72) -/
def ocDeserialize {N : Nat} (p : Vector UInt8 (8 * N)) : Vector Index N := Pluto.deserializeValue p

/-- `Oceanus(path).get(key)` on the file of a table -/
def ocGet {N : Nat} (file : List UInt8) (key : Key) : Except Fault (Vector Index N) :=
  match FTable.open (8 * N) oceanusHash file with
  | .error f => .error f
  | .ok t => match t.get key with
    | .error f => .error f
    | .ok p => .ok (ocDeserialize p)

/-- The events of a build: a new builder, insertions, `commit` -/
def buildEvents {N : Nat} (size depth max : Nat) (ins : List (Key × Vector Index N)) : List (Ev (8 * N)) :=
  .new size depth max :: (ins.map (fun x => .insert x.1 (ocSerialize x.2)) ++ [.commit])

end Verif.Oceanus
