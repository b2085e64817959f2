import Verif.Pluto.Model
import Verif.Tethys.Files

/-!
# A Pluto database on disk, with writes and reads of RocksDB that fail

Model of `lib/include/sse/schemes/pluto/pluto_builder.hpp`, `pluto_server.hpp` and `rocksdb_store.hpp` with
the RocksDB parameters, and with what is on disk: the RocksDB database of the full blocks, the table and the
stash of the Tethys store. A builder may find them not empty, `Put` and `Get` may fail, and calls may be
repeated. A failure of `Flush` is only logged (pluto/rocksdb_store.cpp L98-112) and has no effect here: what
`Put` has written is kept when the process stops (not when the machine does).
-/

namespace Verif.Pluto

open Tethys (CoreKey Token deriveCoreKey ValueEncoder Params)

variable {N : Nat}

/-- What `Put` does: it succeeds; it fails and nothing is written; it fails and the pair is written -/
inductive Put where
  | ok
  | lost
  | kept
deriving DecidableEq, Repr

/-- `GenericRocksDBStore::insert` (rocksdb_store.hpp L43-62): `false` when it throws -/
def Put.insert (m : Map CoreKey (Vector Index N)) (k : CoreKey) (v : Vector Index N) :
    Put → Map CoreKey (Vector Index N) × Bool
  | .ok => (m.put k v, true)
  | .lost => (m, false)
  | .kept => (m.put k v, false)

/-- What is on disk; an absent table is as an empty one. -/
structure Disk (N : Nat) where
  rocks : Map CoreKey (Vector Index N)
  table : List UInt8
  stash : Option (List UInt8)

/-- A `PlutoBuilder` (pluto_builder.hpp L15-67), whose hash table is on disk -/
structure DiskBuilder where
  store : Tethys.Builder
  /-- `complete_lists` -/
  complete : Nat
  /-- `n_elts` -/
  elts : UInt64

/-- What may go wrong in a call of the builder -/
inductive DiskFault where
  /-- `Put` fails -/
  | put
  /-- an exception of the Tethys store -/
  | tethys (f : Tethys.Fault)
deriving DecidableEq, Repr

/-- The loop of `insert_list` (pluto_builder.hpp L135-159); the list has what the calls of `Put` do, in
order, those beyond it succeed. The counter is incremented before the insertion (L140). The result has the
database, `complete_lists`, and the last block when no exception is thrown. -/
def fillLoop (L : Nat) (key : Nat → CoreKey) : List Index → List Index → Nat → List Put →
    Map CoreKey (Vector Index N) → Nat → Map CoreKey (Vector Index N) × Nat × Option (List Index)
  | [], block, _, _, m, n => (m, n, some block)
  | id :: ids, block, c, os, m, n =>
    let block := block ++ [id]
    if block.length = L then
      match (os.headD .ok).insert m (key c) (padded N block) with
      | (m, false) => (m, n + 1, none)
      | (m, true) => fillLoop L key ids [] (c + 1) os.tail m (n + 1)
    else fillLoop L key ids block c os m n

/-- The loop that inserts dummy blocks (pluto_builder.hpp L99-103), with the given random keys; `false`
when it throws. -/
def fillDummies : List CoreKey → List Put → Map CoreKey (Vector Index N) →
    Map CoreKey (Vector Index N) × Bool
  | [], _, m => (m, true)
  | k :: ks, os, m =>
    match (os.headD .ok).insert m k (padded N []) with
    | (m, false) => (m, false)
    | (m, true) => fillDummies ks os.tail m

/-- What a user does with a database and its builders, one process after the other -/
inductive Ev (W : Type) where
  /-- a new builder, for a Tethys table of `size` pages and `n` elements (pluto_builder.hpp L69-80) -/
  | new (size : Nat) (n : UInt64)
  /-- `insert_list` (pluto_builder.hpp L122-178), with what the calls of `Put` do -/
  | insert (w : W) (ids : List Index) (os : List Put)
  /-- `build` (pluto_builder.hpp L84-119), with the random keys and what the calls of `Put` do -/
  | build (rand : Nat → CoreKey) (os : List Put)
  /-- the process stops, or the builder is destroyed -/
  | kill
  /-- the user removes the table and the stash of the Tethys store -/
  | removeStore

/-- What is on disk and the builder, if there is one -/
structure Sys (N : Nat) where
  disk : Disk N
  builder : Option DiskBuilder

variable {W : Type}

/-- One event, and the exception it raises; events on a builder that does not exist do nothing. The blocks
have as many indexes as a list of the Tethys store (rocksdb_store.hpp L130-132). -/
def Sys.step (P : Params W) (s : Sys N) : Ev W → Sys N × Except DiskFault Unit
  | .new size n => match Tethys.Builder.new P.page size P.hash with
    | .error f => (⟨s.disk, none⟩, .error (.tethys f))
    | .ok b => (⟨s.disk, some ⟨b, 0, n⟩⟩, .ok ())
  | .kill => (⟨s.disk, none⟩, .ok ())
  | .removeStore => (⟨⟨s.disk.rocks, [], none⟩, s.builder⟩, .ok ())
  | .insert w ids os => match s.builder with
    | none => (s, .ok ())
    | some b =>
      let key := deriveCoreKey P.H (P.prf w)
      match fillLoop (tethysLength P.page) key ids [] 1 os s.disk.rocks b.complete with
      | (m, c, none) => (⟨{ s.disk with rocks := m }, some { b with complete := c }⟩, .error .put)
      | (m, c, some block) =>
        if block.length > 0 then
          match b.store.insertList (key 0) block with
          | (st, .error f) => (⟨{ s.disk with rocks := m }, some { b with store := st, complete := c }⟩,
              .error (.tethys f))
          | (st, .ok ()) => (⟨{ s.disk with rocks := m }, some { b with store := st, complete := c }⟩, .ok ())
        else (⟨{ s.disk with rocks := m }, some { b with complete := c }⟩, .ok ())
  | .build rand os => match s.builder with
    | none => (s, .ok ())
    | some b =>
      let full := (nFullBlocks (tethysLength P.page) b.elts).toNat
      match fillDummies ((List.range' b.complete (full - b.complete)).map rand) os s.disk.rocks with
      | (m, false) => (⟨{ s.disk with rocks := m }, some b⟩, .error .put)
      | (m, true) =>
        let r := b.store.buildFiles P.enc s.disk.table s.disk.stash
        (⟨⟨m, r.2.1.1, r.2.1.2⟩, some { b with store := r.1 }⟩,
          match r.2.2 with
          | .error f => .error (.tethys f)
          | .ok () => .ok ())

/-- Events, and their outcomes -/
def Sys.run (P : Params W) : Sys N → List (Ev W) → Sys N × List (Except DiskFault Unit)
  | s, [] => (s, [])
  | s, e :: es =>
    let r := s.step P e
    let q := Sys.run P r.1 es
    (q.1, r.2 :: q.2)

/-- `GenericRocksDBStore::get` (rocksdb_store.hpp L64-83) when the reads of some keys fail: any status which
is not `ok` is the exception for a key that is not found. -/
def unread (bad : CoreKey → Bool) (m : Map CoreKey (Vector Index N)) : Map CoreKey (Vector Index N) :=
  fun k => if bad k then none else m k

/-- A search by a client and a server that open these files (`schemeSearch`); the reads of the keys in `bad`
fail. An empty table is refused (tethys_store.hpp L57-59, L128-130). -/
def Disk.search (P : Params W) (d : Disk N) (bad : CoreKey → Bool) (fuel : Nat) (w : W) :
    Except Fault (List Index) :=
  if d.table = [] then .error (.tethys .runtimeError)
  else schemeSearch (rocksdb N) P.hash P.prf P.H P.enc (unread bad d.rocks)
    ⟨Tethys.pagesOf P.page d.table, d.stash⟩ fuel w

end Verif.Pluto
