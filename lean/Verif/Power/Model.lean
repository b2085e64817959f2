import Verif.Runner.Session

/-!
# Loss of power

Every write of the client and of the server uses the default `WriteOptions` of RocksDB
(rocksdb_wrapper.cpp L120, L152, L170, L187; rocksdb_wrapper.hpp L189, L208, L217, L489), for which `sync` is
false: the write is in the log of the database when `Put` returns, but the log need not be on the disk.  The
clients never call `flush`; the server of Diana does so only in `flush_edb` (diana_server.hpp L326-329).

Assumption about RocksDB (its documented recovery to a point in time): after a loss of power, or a crash of
the operating system, a database holds the result of some prefix of its writes.  Nothing relates the prefix
that the client keeps to the one that the server keeps.  Databases that are never written to keep their
content; keys, which are in files written before the first update, are not lost.
-/

namespace Verif.Power

open Verif Verif.Runner.Sess

/-- A database: its contents after each write that may be lost, newest first, and the content at its
creation. -/
structure Db (α : Type) where
  states : List α
  first : α

variable {Kw α : Type}

/-- The content -/
def Db.cur (d : Db α) : α := d.states.headD d.first

/-- A write after which the content is `x` (rocksdb_wrapper.cpp L120, L170; rocksdb_wrapper.hpp L189) -/
def Db.write (d : Db α) (x : α) : Db α := { d with states := x :: d.states }

/-- A loss of power which loses the last `k` writes -/
def Db.lose (d : Db α) (k : Nat) : Db α := { d with states := d.states.drop k }

/-- A client and a server -/
structure Sys (S : Scheme Kw) where
  cli : Db S.Cli
  srv : Db S.Srv

/-- Both after their setup -/
def init (S : Scheme Kw) : Sys S := ⟨⟨[], S.cli0⟩, ⟨[], S.srv0⟩⟩

/-- What happens.  `delivered` tells whether the request reaches the server. -/
inductive Op (Kw : Type) where
  | insert (w : Kw) (i : Index) (delivered : Bool)
  | clientLoss (k : Nat)
  | serverLoss (k : Nat)
deriving DecidableEq, Repr

/-- One event.  An insertion is `insertion_request` of the client (sophos_client.cpp L115-169,
diana_client.hpp L166-206), which writes the new counter, and `insert` of the server
(sophos_server.cpp L484-491, diana_server.hpp L315-323), which writes the new entry. -/
def step (S : Scheme Kw) (s : Sys S) : Op Kw → Sys S
  | .insert w i delivered =>
    let (u, m) := S.request s.cli.cur w i
    { cli := s.cli.write m
      srv := if delivered then s.srv.write (S.store s.srv.cur u) else s.srv }
  | .clientLoss k => { s with cli := s.cli.lose k }
  | .serverLoss k => { s with srv := s.srv.lose k }

/-- A sequence of events, from the setup -/
def run (S : Scheme Kw) (ops : List (Op Kw)) : Sys S := ops.foldl (step S) (init S)

/-- What a search for `w` returns after the events `ops` -/
def search (S : Scheme Kw) (ops : List (Op Kw)) (w : Kw) : Option (List Index) :=
  S.find (run S ops).cli.cur (run S ops).srv.cur w

/-- The request that an insertion after the events `ops` sends -/
def request (S : Scheme Kw) (ops : List (Op Kw)) (w : Kw) (i : Index) : S.Upd :=
  (S.request (run S ops).cli.cur w i).1

end Verif.Power
