import Verif.Janus.Crash
import Verif.Power.Model

/-!
# Janus and loss of power

Client and server of Janus have three databases each: the search counters and the counters of the two Diana
clients (`/repo/lib/include/sse/schemes/janus/janus_client.hpp` L88-91), the entries of the two Diana servers
and the cache (`/repo/lib/include/sse/schemes/janus/janus_server.hpp` L50-53).  No write is synchronised
(see `Verif.Power.Model`).  `JanusServer::flush_edb` writes the first two databases of the server to the
disk, but not the cache (`/repo/lib/janus/janus_server.cpp` L305-309).

Assumption about RocksDB, as in `Verif.Power.Model`: after a loss of power a database holds the result of
some prefix of its writes, at least of those made before its last `Flush`.  Nothing relates the prefixes of
different databases.

A search that is interrupted by a loss of power is a search followed by a loss: the databases hold prefixes
of the writes of the search.
-/

namespace Verif.Janus.Power

open Verif
open Verif.Power (Db)

variable {PK KS CT Rand : Type}

/-- `Flush` with `wait` set (rocksdb_wrapper.hpp L222-235): what was written before is not lost. -/
def flush {α : Type} (d : Db α) : Db α := ⟨[], d.cur⟩

/-- Several writes, with the contents after each of them -/
def writes {α : Type} (d : Db α) (l : List α) : Db α := l.foldl Db.write d

/-- The databases of client and server -/
structure Sys (KS CT : Type) where
  searchCtr : Db (Map Str UInt32)
  insCtr : Db (Map Str UInt32)
  delCtr : Db (Map Str UInt32)
  insEdb : Db (Diana.Edb CT)
  delEdb : Db (Diana.Edb KS)
  cache : Db (Map (Vector UInt8 16) (List UInt8))

/-- Fresh client and server -/
def Sys.init : Sys KS CT :=
  ⟨⟨[], Map.empty⟩, ⟨[], Map.empty⟩, ⟨[], Map.empty⟩, ⟨[], Map.empty⟩, ⟨[], Map.empty⟩, ⟨[], Map.empty⟩⟩

/-- What the client reads -/
def Sys.client (s : Sys KS CT) : Client := ⟨s.searchCtr.cur, s.insCtr.cur, s.delCtr.cur⟩

/-- What the server reads -/
def Sys.server (s : Sys KS CT) : Server KS CT := ⟨s.insEdb.cur, s.delEdb.cur, s.cache.cur⟩

/-- The database after each deletion of a deleting Diana search (`retrieve_entry`,
diana_server.hpp L83-93). -/
def deletions {V : Type} (c : Diana.Crypto Str V) : Diana.Edb V → List (Nat × Diana.Leaf) → List (Diana.Edb V)
  | _, [] => []
  | edb, (_, leaf) :: rest =>
    match edb (c.token leaf) with
    | some _ => edb.erase (c.token leaf) :: deletions c (edb.erase (c.token leaf)) rest
    | none => deletions c edb rest

/-- The database after each deletion of `DianaServer::search` (diana_server.hpp L146-183). -/
def searchWrites {V : Type} (c : Diana.Crypto Str V) (edb : Diana.Edb V) (req : Diana.SearchReq c) :
    List (Diana.Edb V) :=
  match Crash.leaves c req with
  | some l => deletions c edb l
  | none => []

/-- What happens.  `delivered`: the request reaches the server.  A loss says how many of the last writes each
of the three databases of the machine loses. -/
inductive Op (Rand : Type) where
  | insert (w : Str) (i : Index) (r : Rand) (delivered : Bool)
  | remove (w : Str) (i : Index) (delivered : Bool)
  | search (w : Str) (delivered : Bool)
  | clientLoss (searchCtr insCtr delCtr : Nat)
  | serverLoss (insEdb delEdb cache : Nat)
  | flush

/-- The writes of `JanusClient::search_request` (janus_client.cpp L114-127): at most one to each database. -/
def clientSearch (c : Crypto PK KS CT Rand) (s : Sys KS CT) (w : Str) : Sys KS CT :=
  let (req, cl) := searchRequest c s.client w
  { s with
    searchCtr := if req.ins.addCount > 0 || req.del.addCount > 0 then s.searchCtr.write cl.searchCtr
      else s.searchCtr
    insCtr := if req.ins.addCount > 0 then s.insCtr.write cl.insCtr else s.insCtr
    delCtr := if req.del.addCount > 0 then s.delCtr.write cl.delCtr else s.delCtr }

/-- One event: the new state and the results of a search. -/
def step (c : Crypto PK KS CT Rand) (s : Sys KS CT) : Op Rand → Except Fault (Sys KS CT × List (List Index))
  | .insert w i r delivered =>
    let (req, cl) := insertionRequest c s.client w i r
    .ok ({ s with
      insCtr := s.insCtr.write cl.insCtr
      insEdb := if delivered then s.insEdb.write (insert s.server req).insEdb else s.insEdb }, [])
  | .remove w i delivered =>
    let (req, cl) := removalRequest c s.client w i
    .ok ({ s with
      delCtr := s.delCtr.write cl.delCtr
      delEdb := if delivered then s.delEdb.write (remove s.server req).delEdb else s.delEdb }, [])
  | .search w delivered =>
    let req := (searchRequest c s.client w).1
    if delivered then
      match search c s.server req with
      | .ok (res, srv) =>
        .ok ({ clientSearch c s w with
          insEdb := writes s.insEdb (searchWrites c.ins s.insEdb.cur req.ins)
          delEdb := writes s.delEdb (searchWrites c.del s.delEdb.cur req.del)
          cache := s.cache.write srv.cache }, [res])
      | .error e => .error e
    else .ok (clientSearch c s w, [])
  | .clientLoss a b d =>
    .ok ({ s with
      searchCtr := s.searchCtr.lose a, insCtr := s.insCtr.lose b, delCtr := s.delCtr.lose d }, [])
  | .serverLoss a b d =>
    .ok ({ s with
      insEdb := s.insEdb.lose a, delEdb := s.delEdb.lose b, cache := s.cache.lose d }, [])
  | .flush => .ok ({ s with insEdb := flush s.insEdb, delEdb := flush s.delEdb }, [])

/-- A history: the final state and the results of the searches in order. -/
def run (c : Crypto PK KS CT Rand) :
    Sys KS CT → List (Op Rand) → Except Fault (Sys KS CT × List (List Index))
  | s, [] => .ok (s, [])
  | s, op :: ops =>
    match step c s op with
    | .error e => .error e
    | .ok (s', out) =>
      match run c s' ops with
      | .error e => .error e
      | .ok (s'', outs) => .ok (s'', out ++ outs)

end Verif.Janus.Power
