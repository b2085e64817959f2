import Verif.Common.Map
import Mathlib.Logic.Relation

/-!
# The keyword counter store

`RocksDBCounter`, `/repo/lib/utils/rocksdb_wrapper.cpp` L85-190, and its concurrent use by client
threads.  Simplification: RocksDB itself does not fail, so the methods always return `true`.
-/

namespace Verif.Counter

open Verif

variable {Kw α : Type} [DecidableEq Kw]

/-- `RocksDBCounter::get` (rocksdb_wrapper.cpp L85-99): `none` models `return false`. -/
def get (m : Map Kw UInt32) (w : Kw) : Option UInt32 := m w

/-- The value computed by `get_and_increment` from the value read (rocksdb_wrapper.cpp L110-116):
a found value is incremented in 32-bit arithmetic, a missing one becomes 0. -/
def nextValue (found : Option UInt32) : UInt32 :=
  match found with
  | some v => v + 1
  | none => 0

/-- `RocksDBCounter::get_and_increment` (rocksdb_wrapper.cpp L101-132), run without interference:
read, compute, store and return the new value. -/
def getAndIncrement (m : Map Kw UInt32) (w : Kw) : UInt32 × Map Kw UInt32 :=
  let v := nextValue (get m w)
  (v, m.put w v)

/-- `RocksDBCounter::increment` (rocksdb_wrapper.cpp L134-164). -/
def increment (m : Map Kw UInt32) (w : Kw) (default : UInt32) : Map Kw UInt32 :=
  match get m w with
  | some v => m.put w (v + 1)
  | none => m.put w default

/-- `RocksDBCounter::set` (rocksdb_wrapper.cpp L166-182). -/
def set (m : Map Kw UInt32) (w : Kw) (v : UInt32) : Map Kw UInt32 := m.put w v

/-- `RocksDBCounter::remove_key` (rocksdb_wrapper.cpp L185-190). -/
def removeKey (m : Map Kw UInt32) (w : Kw) : Map Kw UInt32 := m.erase w

/-- A client performing insertions one after the other: the counter value obtained by each of
them (first lines of `insertion_request`: sophos_client.cpp L126-134, diana_client.hpp L175-182). -/
def assign : Map Kw UInt32 → List (Kw × α) → List (Kw × α × UInt32) × Map Kw UInt32
  | m, [] => ([], m)
  | m, (w, i) :: rest =>
    let (v, m') := getAndIncrement m w
    let (rs, m'') := assign m' rest
    ((w, i, v) :: rs, m'')

/-! ## Concurrent insertions

`get_and_increment` is a `Get` followed by a `Put` without any lock
(rocksdb_wrapper.cpp L105 and L120; the mutex `token_map_mtx_` of the clients is never taken), so
two insertions on the same client interleave at that granularity. -/

/-- A client thread: insertions still to be requested, and the insertion under way between its
`Get` and its `Put`, with the new counter value. -/
structure Thread (Kw α : Type) where
  todo : List (Kw × α)
  pending : Option (Kw × α × UInt32)

/-- Shared counter store, client threads, and insertion requests emitted so far. -/
structure Sys (Kw α : Type) where
  counters : Map Kw UInt32
  threads : List (Thread Kw α)
  emitted : List (Kw × α × UInt32)

/-- One atomic step of one thread. -/
inductive Step : Sys Kw α → Sys Kw α → Prop
  /-- the `Get` of `get_and_increment` (L105-116). -/
  | read (s : Sys Kw α) (t : Nat) (w : Kw) (i : α) (rest : List (Kw × α))
      (h : s.threads[t]? = some ⟨(w, i) :: rest, none⟩) :
      Step s { s with
        threads := s.threads.set t ⟨rest, some (w, i, nextValue (get s.counters w))⟩ }
  /-- the `Put` of `get_and_increment` (L118-131); the request is then built from `v`. -/
  | write (s : Sys Kw α) (t : Nat) (w : Kw) (i : α) (v : UInt32) (rest : List (Kw × α))
      (h : s.threads[t]? = some ⟨rest, some (w, i, v)⟩) :
      Step s
        { counters := s.counters.put w v
          threads := s.threads.set t ⟨rest, none⟩
          emitted := s.emitted ++ [(w, i, v)] }

/-- Threads about to perform the insertions `Ls`, on a fresh store. -/
def Sys.init (Ls : List (List (Kw × α))) : Sys Kw α :=
  { counters := Map.empty, threads := Ls.map (fun L => ⟨L, none⟩), emitted := [] }

/-- All the threads are done. -/
def Sys.Done (s : Sys Kw α) : Prop := ∀ th ∈ s.threads, th.todo = [] ∧ th.pending = none

/-- Reachability. -/
def Reachable (Ls : List (List (Kw × α))) (s : Sys Kw α) : Prop :=
  Relation.ReflTransGen Step (Sys.init Ls) s

end Verif.Counter
