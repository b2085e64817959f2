import Verif.Janus.Model

/-!
# Janus with lost messages and interrupted searches

A search of Janus changes both sides: `JanusClient::search_request` starts a new epoch for the keyword
and forgets the counters of the old one (`/repo/lib/janus/janus_client.cpp` L114-127) before the request
is sent, and `JanusServer::search` deletes the entries of the epoch (`/repo/lib/janus/janus_server.cpp`
L97-101) before their results are written to the cache (L157).  Here messages may be lost or processed
twice, and client or server may stop between two writes to their databases.

Simplification: a stop keeps what was written before, and client and server are started again on the
same files (opening them changes nothing, see `Verif.Runner.Restart`).
-/

namespace Verif.Janus.Crash

open Verif

variable {PK KS CT Rand : Type}

/-! ## Client -/

/-- The writes of `JanusClient::search_request` in their order: `search_counter_map_.set`
(janus_client.cpp L116-119) and the two `remove_keyword` (L122-127). -/
def clientWrites (c : Crypto PK KS CT Rand) (cl : Client) (w : Str) : List (Client → Client) :=
  let sc := searchCounter cl w
  let mkw := metaKeyword w sc
  let ins := (Diana.searchRequest c.ins cl.insCtr mkw).addCount
  let del := (Diana.searchRequest c.del cl.delCtr mkw).addCount
  (if ins > 0 || del > 0 then
      [fun x => { x with searchCtr := Counter.set x.searchCtr w (sc + 1) }] else []) ++
    (if ins > 0 then [fun x => { x with insCtr := Diana.removeKeyword x.insCtr mkw }] else []) ++
    (if del > 0 then [fun x => { x with delCtr := Diana.removeKeyword x.delCtr mkw }] else [])

/-- The files of the client when it stops after `k` writes of `search_request`. -/
def clientStopped (c : Crypto PK KS CT Rand) (cl : Client) (w : Str) (k : Nat) : Client :=
  ((clientWrites c cl w).take k).foldl (fun x f => f x) cl

/-! ## Server -/

/-- The leaves visited by `DianaServer::search` (diana_server.hpp L161-182). -/
def leaves {V : Type} (c : Diana.Crypto Str V) (req : Diana.SearchReq c) :
    Option (List (Nat × Diana.Leaf)) :=
  if req.addCount = 0 then some [] else Diana.evalRange c req.rcprf 0 (c.maxLeaf req.rcprf)

/-- The deletions made by a deleting Diana search (`retrieve_entry`, diana_server.hpp L83-93), stopped
when `k` entries have been deleted: deletions left, and the database. -/
def deleteSome {V : Type} (c : Diana.Crypto Str V) :
    Nat → Diana.Edb V → List (Nat × Diana.Leaf) → Nat × Diana.Edb V
  | k, edb, [] => (k, edb)
  | 0, edb, _ :: _ => (0, edb)
  | k + 1, edb, (_, leaf) :: rest =>
    match edb (c.token leaf) with
    | some _ => deleteSome c k (edb.erase (c.token leaf)) rest
    | none => deleteSome c (k + 1) edb rest

/-- The files of the server when it stops in `JanusServer::search` (janus_server.cpp L95-161) after `k`
deletions and before the cache is written: the insertions are deleted first (L97-98), then the key
shares (L100-101). -/
def serverStopped (c : Crypto PK KS CT Rand) (srv : Server KS CT) (req : SearchReq c) (k : Nat) :
    Except Fault (Server KS CT) :=
  match leaves c.ins req.ins, leaves c.del req.del with
  | some li, some ld =>
    let r := deleteSome c.ins k srv.insEdb li
    .ok { srv with insEdb := r.2, delEdb := (deleteSome c.del r.1 srv.delEdb ld).2 }
  | _, _ => .error .exception

/-! ## Histories -/

/-- What happens to a search. -/
inductive Fate where
  /-- the request is processed and answered -/
  | completed
  /-- the request is processed twice, e.g. sent again because the answer was lost -/
  | repeated
  /-- the client stops after `k` writes of `search_request`; nothing is sent -/
  | clientStopped (k : Nat)
  /-- the request does not reach the server -/
  | requestLost
  /-- the server stops after `k` deletions, before the cache is written -/
  | serverStopped (k : Nat)

/-- An operation and what happens to its messages.  A client that stops after it has counted an update
and before it has sent it is an update that is not delivered. -/
inductive Ev (Rand : Type) where
  | insert (w : Str) (i : Index) (r : Rand) (delivered : Bool)
  | remove (w : Str) (i : Index) (delivered : Bool)
  | search (w : Str) (f : Fate)

/-- One event: the new state, and the answers computed by the server. -/
def evStep (c : Crypto PK KS CT Rand) (s : Sys KS CT) :
    Ev Rand → Except Fault (Sys KS CT × List (List Index))
  | .insert w i r d =>
    let (req, cl) := insertionRequest c s.client w i r
    .ok ({ client := cl, server := if d then insert s.server req else s.server }, [])
  | .remove w i d =>
    let (req, cl) := removalRequest c s.client w i
    .ok ({ client := cl, server := if d then remove s.server req else s.server }, [])
  | .search w .completed =>
    let (req, cl) := searchRequest c s.client w
    match search c s.server req with
    | .ok (res, srv) => .ok ({ client := cl, server := srv }, [res])
    | .error e => .error e
  | .search w .repeated =>
    let (req, cl) := searchRequest c s.client w
    match search c s.server req with
    | .ok (res, srv) =>
      match search c srv req with
      | .ok (res', srv') => .ok ({ client := cl, server := srv' }, [res, res'])
      | .error e => .error e
    | .error e => .error e
  | .search w (.clientStopped k) => .ok ({ s with client := clientStopped c s.client w k }, [])
  | .search w .requestLost => .ok ({ s with client := (searchRequest c s.client w).2 }, [])
  | .search w (.serverStopped k) =>
    let (req, cl) := searchRequest c s.client w
    match serverStopped c s.server req k with
    | .ok srv => .ok ({ client := cl, server := srv }, [])
    | .error e => .error e

/-- A history: the final state and the answers in order. -/
def evRun (c : Crypto PK KS CT Rand) :
    Sys KS CT → List (Ev Rand) → Except Fault (Sys KS CT × List (List Index))
  | s, [] => .ok (s, [])
  | s, ev :: evs =>
    match evStep c s ev with
    | .error e => .error e
    | .ok (s', out) =>
      match evRun c s' evs with
      | .error e => .error e
      | .ok (s'', outs) => .ok (s'', out ++ outs)

end Verif.Janus.Crash
