import Verif.Janus.Model
import Verif.Faults.Model

/-!
# Janus when calls of RocksDB fail

Every `Get`, `Put` and `Delete` made by `JanusClient` and `JanusServer` may fail.  The code looks at the
result of one of them only, the `Put` of `get_and_increment` (`/repo/lib/utils/rocksdb_wrapper.cpp`
L118-131, `/repo/lib/include/sse/schemes/diana/diana_client.hpp` L180-186).  A failed `Get` is
treated like a missing key; the results of `set`, `remove_key`, `put` and `remove` are ignored
(`/repo/lib/janus/janus_client.cpp` L116-127, `/repo/lib/janus/janus_server.cpp` L157,
`/repo/lib/include/sse/schemes/diana/diana_server.hpp` L83-93, L322).  For a call whose result is
ignored only one thing matters: whether it was applied.

The sequential search of the server is modelled; values of a wrong length are not.
-/

namespace Verif.Janus.Faults

open Verif

variable {PK KS CT Rand : Type}

/-- The calls made for an insertion: `search_counter_map_.get`, `Get` and `Put` of
`get_and_increment`, `Put` of the server (`true`: applied). -/
structure InsertF where
  scGet : Bool
  getOk : Bool
  putRes : Verif.Faults.PutRes
  srvPut : Bool

/-- The calls made for a removal; `numGet` is the `Get` of `get_match_count`. -/
structure RemoveF where
  scGet : Bool
  numGet : Bool
  getOk : Bool
  putRes : Verif.Faults.PutRes
  srvPut : Bool

/-- The calls made for a search.  Client: the three `Get`, the `Put` of `set`, the two `Delete` of
`remove_keyword`.  Server: `badIns p`: the `Get` of the `p`-th insertion fails; `keepIns p`: its
`Delete` is not applied; the same for the key shares; `Get` and `Put` of the cache. -/
structure SearchF where
  scGet : Bool
  insGet : Bool
  delGet : Bool
  scPut : Bool
  insDel : Bool
  delDel : Bool
  badIns : Nat → Bool
  keepIns : Nat → Bool
  badDel : Nat → Bool
  keepDel : Nat → Bool
  cacheGet : Bool
  cachePut : Bool

/-- An operation with the fate of the calls made for it. -/
inductive Op (Rand : Type) where
  | insert (w : Str) (i : Index) (r : Rand) (f : InsertF)
  | remove (w : Str) (i : Index) (f : RemoveF)
  | search (w : Str) (f : SearchF)

/-- What the user observes. -/
inductive Out where
  /-- the update returned normally -/
  | acked
  /-- an exception was thrown -/
  | error
  /-- the search returned normally -/
  | results (l : List Index)
  deriving DecidableEq

/-! ## Client -/

/-- The search counter, 0 if it cannot be read (janus_client.cpp L84-87, L135-138, L156-159). -/
def searchCounter (ok : Bool) (cl : Client) (w : Str) : UInt32 :=
  if ok then Janus.searchCounter cl w else 0

/-- `JanusClient::insertion_request` (janus_client.cpp L132-151): the request (`none`: exception) and
the client. -/
def insertionRequest (c : Crypto PK KS CT Rand) (cl : Client) (w : Str) (i : Index) (r : Rand)
    (f : InsertF) : Option (Diana.UpdateReq CT) × Client :=
  let mkw := metaKeyword w (searchCounter f.scGet cl w)
  let ct := c.encrypt (c.derive mkw) r i (docTag c w i)
  let (success, v, m) := Verif.Faults.getAndIncrement f.getOk f.putRes cl.insCtr mkw
  (if success then some (Diana.requestFor c.ins mkw ct v) else none, { cl with insCtr := m })

/-- `JanusClient::removal_request` (janus_client.cpp L153-175). -/
def removalRequest (c : Crypto PK KS CT Rand) (cl : Client) (w : Str) (i : Index) (f : RemoveF) :
    Option (Diana.UpdateReq KS) × Client :=
  let mkw := metaKeyword w (searchCounter f.scGet cl w)
  let nDel := Diana.getMatchCount (Verif.Faults.seen f.numGet cl.delCtr) mkw
  let ks := c.incPuncture (c.derive mkw) (nDel + 1) (docTag c w i)
  let (success, v, m) := Verif.Faults.getAndIncrement f.getOk f.putRes cl.delCtr mkw
  (if success then some (Diana.requestFor c.del mkw ks v) else none, { cl with delCtr := m })

/-- `JanusClient::search_request` (janus_client.cpp L82-130). -/
def searchRequest (c : Crypto PK KS CT Rand) (cl : Client) (w : Str) (f : SearchF) :
    SearchReq c × Client :=
  let sc := searchCounter f.scGet cl w
  let mkw := metaKeyword w sc
  let ins := Diana.searchRequest c.ins (Verif.Faults.seen f.insGet cl.insCtr) mkw
  let del := Diana.searchRequest c.del (Verif.Faults.seen f.delGet cl.delCtr) mkw
  let req : SearchReq c :=
    { kwToken := c.kwToken w, ins := ins, del := del,
      firstKeyShare := c.initialKeyshare (c.derive mkw) del.addCount }
  (req,
    { searchCtr :=
        if (ins.addCount > 0 || del.addCount > 0) && f.scPut then Counter.set cl.searchCtr w (sc + 1)
        else cl.searchCtr
      insCtr :=
        if ins.addCount > 0 && f.insDel then Diana.removeKeyword cl.insCtr mkw else cl.insCtr
      delCtr :=
        if del.addCount > 0 && f.delDel then Diana.removeKeyword cl.delCtr mkw else cl.delCtr })

/-! ## Server -/

/-- The calls of `eval_callback` in a deleting `DianaServer::search` (diana_server.hpp L83-93,
L110-144, L172-180). -/
def deleteLoop {V : Type} (c : Diana.Crypto Str V) (bad keep : Nat → Bool) :
    Diana.Edb V → List (Nat × Diana.Leaf) → List V × Diana.Edb V
  | edb, [] => ([], edb)
  | edb, (p, leaf) :: rest =>
    match Verif.Faults.get (!bad p) edb (c.token leaf) with
    | some v =>
      let r := deleteLoop c bad keep (if keep p then edb else edb.erase (c.token leaf)) rest
      (c.xor v (c.mask leaf) :: r.1, r.2)
    | none => deleteLoop c bad keep edb rest

/-- `DianaServer::search` with deletion (diana_server.hpp L146-183).  `none`: an exception. -/
def dianaSearch {V : Type} (c : Diana.Crypto Str V) (edb : Diana.Edb V) (req : Diana.SearchReq c)
    (bad keep : Nat → Bool) : Option (List V × Diana.Edb V) :=
  if req.addCount = 0 then some ([], edb)
  else (Diana.evalRange c req.rcprf 0 (c.maxLeaf req.rcprf)).map
    (fun leaves => deleteLoop c bad keep edb leaves)

/-- `JanusServer::search` (janus_server.cpp L95-161). -/
def search (c : Crypto PK KS CT Rand) (srv : Server KS CT) (req : SearchReq c) (f : SearchF) :
    Except Fault (List Index × Server KS CT) := do
  let (insertions, insEdb) ← ofOption (dianaSearch c.ins srv.insEdb req.ins f.badIns f.keepIns)
  let (keyShares, delEdb) ← ofOption (dianaSearch c.del srv.delEdb req.del f.badDel f.keepDel)
  let removedTags := keyShares.map c.ksTag
  let cached ← if f.cacheGet then readCache srv.cache req.kwToken else .ok []
  let filtered := filterCache removedTags cached
  let fresh := decryptAll c (req.firstKeyShare :: keyShares) insertions
  return (filtered.map (·.1) ++ fresh.map (·.1),
    { insEdb := insEdb, delEdb := delEdb,
      cache := if f.cachePut then writeCache srv.cache req.kwToken (filtered ++ fresh)
        else srv.cache })

/-! ## Histories -/

/-- One operation: the new state and the observation.  `Fault` is a failure of the process. -/
def step (c : Crypto PK KS CT Rand) (s : Sys KS CT) : Op Rand → Except Fault (Sys KS CT × Out)
  | .insert w i r f =>
    match insertionRequest c s.client w i r f with
    | (some req, cl) =>
      .ok ({ client := cl, server := if f.srvPut then insert s.server req else s.server }, .acked)
    | (none, cl) => .ok ({ s with client := cl }, .error)
  | .remove w i f =>
    match removalRequest c s.client w i f with
    | (some req, cl) =>
      .ok ({ client := cl, server := if f.srvPut then remove s.server req else s.server }, .acked)
    | (none, cl) => .ok ({ s with client := cl }, .error)
  | .search w f =>
    match search c s.server (searchRequest c s.client w f).1 f with
    | .ok (res, srv) => .ok ({ client := (searchRequest c s.client w f).2, server := srv }, .results res)
    | .error e => .error e

/-- A history: the final state and the observations in order. -/
def run (c : Crypto PK KS CT Rand) :
    Sys KS CT → List (Op Rand) → Except Fault (Sys KS CT × List Out)
  | s, [] => .ok (s, [])
  | s, op :: ops =>
    match step c s op with
    | .error e => .error e
    | .ok (s', out) =>
      match run c s' ops with
      | .error e => .error e
      | .ok (s'', outs) => .ok (s'', out :: outs)

end Verif.Janus.Faults
