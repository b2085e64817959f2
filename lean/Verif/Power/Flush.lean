import Verif.Power.Model

/-!
# Loss of power, with the flushes of the services

The service of Diana flushes its database at the end of each bulk session, before the answer (`/repo/lib/diana/server_runner.cpp` L341), and
when it is stopped (`~DianaImpl`, L96-99); both by `flush_server_storage` (L357-367), `DianaServer::flush_edb`
(`/repo/lib/include/sse/schemes/diana/diana_server.hpp` L325-329) and `RockDBWrapper::flush`
(`/repo/lib/include/sse/schemes/utils/rocksdb_wrapper.hpp` L222-237), which waits for the end of the flush and only logs a failure. The service of
Sophos never flushes (`/repo/lib/sophos/sophos_server_runner.cpp` L271-294, no destructor), nor does Diana for an update that is sent
alone (server_runner.cpp L298-318).

Assumption about RocksDB, in addition to that of `Verif.Power.Model`: what was written before a flush that succeeds is not lost.
-/

namespace Verif.Power

open Verif Verif.Runner.Sess

variable {Kw α : Type}

/-- `RockDBWrapper::flush` that succeeds: the content cannot be lost any more. -/
def Db.flush (d : Db α) : Db α := ⟨[], d.cur⟩

/-- Which service -/
inductive Service where
  | sophos
  | diana
deriving DecidableEq

/-- What happens. `ok` tells whether `Flush` of RocksDB succeeds, if it is called. -/
inductive Ev (Kw : Type) where
  /-- an insertion, alone or in a bulk session; `delivered` tells whether the request reaches the server -/
  | insert (w : Kw) (i : Index) (delivered : Bool)
  /-- a bulk session is answered -/
  | sessionEnd (ok : Bool)
  /-- the service is stopped and started again -/
  | restart (ok : Bool)
  | clientLoss (k : Nat)
  | serverLoss (k : Nat)
deriving DecidableEq

/-- The end of `bulk_insert` (diana L341; sophos L290-293), and the destructor (diana L96-99) -/
def endStep (sv : Service) (ok : Bool) (d : Db α) : Db α :=
  match sv with
  | .sophos => d
  | .diana => if ok then d.flush else d

/-- One event -/
def evStep (sv : Service) (S : Scheme Kw) (s : Sys S) : Ev Kw → Sys S
  | .insert w i delivered => step S s (.insert w i delivered)
  | .sessionEnd ok => { s with srv := endStep sv ok s.srv }
  | .restart ok => { s with srv := endStep sv ok s.srv }
  | .clientLoss k => step S s (.clientLoss k)
  | .serverLoss k => step S s (.serverLoss k)

/-- A sequence of events, from the setup -/
def evRun (sv : Service) (S : Scheme Kw) (evs : List (Ev Kw)) : Sys S := evs.foldl (evStep sv S) (init S)

/-- What a search for `w` returns after the events -/
def evSearch (sv : Service) (S : Scheme Kw) (evs : List (Ev Kw)) (w : Kw) : Option (List Index) :=
  S.find (evRun sv S evs).cli.cur (evRun sv S evs).srv.cur w

/-! ## What a user may expect -/

namespace Durable

/-- The documents that cannot be lost any more, and the others, oldest first -/
structure Docs (Kw : Type) where
  safe : List (Kw × Index)
  recent : List (Kw × Index)

/-- One event: when a bulk session was answered, or after the service was stopped, everything is safe. -/
def step (s : Docs Kw) : Ev Kw → Docs Kw
  | .insert w i delivered => { s with recent := if delivered then s.recent ++ [(w, i)] else s.recent }
  | .sessionEnd _ => ⟨s.safe ++ s.recent, []⟩
  | .restart _ => ⟨s.safe ++ s.recent, []⟩
  | .clientLoss _ => s
  | .serverLoss k => { s with recent := s.recent.take (s.recent.length - k) }

/-- A sequence of events -/
def run (evs : List (Ev Kw)) : Docs Kw := evs.foldl step ⟨[], []⟩

/-- The documents of `w` that are not lost -/
def docs [DecidableEq Kw] (evs : List (Ev Kw)) (w : Kw) : List Index :=
  (((run evs).safe ++ (run evs).recent).filter (fun e => e.1 = w)).map (·.2)

/-- The documents ever inserted for `w` -/
def inserted [DecidableEq Kw] (evs : List (Ev Kw)) (w : Kw) : List Index :=
  evs.filterMap (fun o => match o with | .insert v i _ => if v = w then some i else none | _ => none)

/-- The client loses nothing. -/
def NoClientLoss (evs : List (Ev Kw)) : Prop := ∀ k, .clientLoss k ∉ evs

/-- No flush fails. -/
def NoFailure (evs : List (Ev Kw)) : Prop := .sessionEnd false ∉ evs ∧ .restart false ∉ evs

end Durable

end Verif.Power
