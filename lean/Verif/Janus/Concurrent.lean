import Verif.Janus.Model

/-!
# A Janus server that works on several calls at the same time

Model of concurrent calls of `JanusServer::search`, `insert` and `remove`
(`/repo/lib/janus/janus_server.cpp` L95-161, L295-303): each access to one of the three databases is a step, and
the steps of the calls are interleaved in any way. The client makes one request after the other (its own data races
are C06), and each request is one call, made as soon as the request is. Not modelled here: `search_parallel`
(C15, C68).
-/

namespace Verif.Janus.Conc

open Verif

variable {PK KS CT Rand : Type}

/-- Where a call stands: its next access and its local variables. -/
inductive Pc (c : Crypto PK KS CT Rand) where
  /-- `insertion_server_.insert(req)` (janus_server.cpp L295-298) -/
  | insert (req : Diana.UpdateReq CT)
  /-- `deletion_server_.insert(req)` (janus_server.cpp L300-303) -/
  | remove (req : Diana.UpdateReq KS)
  /-- `insertion_server_.search` (janus_server.cpp L97-98): `edb_.get` of the next leaf
  (diana_server.hpp L73-87, L110-144); `acc` is `results` -/
  | insGet (req : SearchReq c) (leaves : List (Nat × Diana.Leaf)) (acc : List CT)
  /-- `edb_.remove` of the entry that was found (diana_server.hpp L73-87) -/
  | insErase (req : SearchReq c) (token : Diana.Token) (leaves : List (Nat × Diana.Leaf)) (acc : List CT)
  /-- `deletion_server_.search` (janus_server.cpp L100-101), in the same manner -/
  | delGet (req : SearchReq c) (insertions : List CT) (leaves : List (Nat × Diana.Leaf)) (acc : List KS)
  | delErase (req : SearchReq c) (insertions : List CT) (token : Diana.Token)
      (leaves : List (Nat × Diana.Leaf)) (acc : List KS)
  /-- `cached_results_edb_.get` (janus_server.cpp L128) -/
  | cacheGet (req : SearchReq c) (insertions : List CT) (shares : List KS)
  /-- `cached_results_edb_.put` (janus_server.cpp L156) -/
  | cachePut (req : SearchReq c) (entries : List (Index × Tag)) (results : List Index)
  /-- the call has returned, a search with its results -/
  | done (res : Option (List Index))
  | failed (f : Fault)

/-- The leaves of a search of a Diana server (diana_server.hpp L161-183); `none` is an exception. -/
def searchLeaves {V : Type} (c : Diana.Crypto Str V) (req : Diana.SearchReq c) :
    Option (List (Nat × Diana.Leaf)) :=
  if req.addCount = 0 then some [] else Diana.evalRange c req.rcprf 0 (c.maxLeaf req.rcprf)

/-- The beginning of a search (janus_server.cpp L95-98). -/
def startSearch (c : Crypto PK KS CT Rand) (req : SearchReq c) : Pc c :=
  match searchLeaves c.ins req.ins with
  | none => .failed .exception
  | some l => .insGet req l []

/-- The beginning of the search of the key shares (janus_server.cpp L100-101). -/
def startDel (c : Crypto PK KS CT Rand) (req : SearchReq c) (insertions : List CT) : Pc c :=
  match searchLeaves c.del req.del with
  | none => .failed .exception
  | some l => .delGet req insertions l []

/-- The next access of a call. -/
def work (c : Crypto PK KS CT Rand) (srv : Server KS CT) : Pc c → Server KS CT × Pc c
  | .insert req => (Janus.insert srv req, .done none)
  | .remove req => (Janus.remove srv req, .done none)
  | .insGet req [] acc => (srv, startDel c req acc)
  | .insGet req (l :: ls) acc => match srv.insEdb (c.ins.token l.2) with
    | none => (srv, .insGet req ls acc)
    | some v => (srv, .insErase req (c.ins.token l.2) ls (acc ++ [c.ins.xor v (c.ins.mask l.2)]))
  | .insErase req t ls acc => ({ srv with insEdb := srv.insEdb.erase t }, .insGet req ls acc)
  | .delGet req is [] acc => (srv, .cacheGet req is acc)
  | .delGet req is (l :: ls) acc => match srv.delEdb (c.del.token l.2) with
    | none => (srv, .delGet req is ls acc)
    | some v => (srv, .delErase req is (c.del.token l.2) ls (acc ++ [c.del.xor v (c.del.mask l.2)]))
  | .delErase req is t ls acc => ({ srv with delEdb := srv.delEdb.erase t }, .delGet req is ls acc)
  | .cacheGet req is shares => match readCache srv.cache req.kwToken with
    | .error f => (srv, .failed f)
    | .ok cached =>
      let filtered := filterCache (shares.map c.ksTag) cached
      let fresh := decryptAll c (req.firstKeyShare :: shares) is
      (srv, .cachePut req (filtered ++ fresh) (filtered.map (·.1) ++ fresh.map (·.1)))
  | .cachePut req entries results =>
    ({ srv with cache := writeCache srv.cache req.kwToken entries }, .done (some results))
  | .done res => (srv, .done res)
  | .failed f => (srv, .failed f)

/-- The call has returned. -/
def Pc.over {c : Crypto PK KS CT Rand} : Pc c → Bool
  | .done _ => true
  | .failed _ => true
  | _ => false

/-- A call: the keyword of its request and where it stands. -/
structure Call (c : Crypto PK KS CT Rand) where
  kw : Str
  pc : Pc c

/-- The client, the server and all calls, in the order of their requests. -/
structure CSys (c : Crypto PK KS CT Rand) where
  client : Client
  server : Server KS CT
  calls : List (Call c)

/-- Fresh client and server. -/
def CSys.init (c : Crypto PK KS CT Rand) : CSys c :=
  ⟨(Sys.init : Sys KS CT).client, (Sys.init : Sys KS CT).server, []⟩

/-- What happens: the client makes a request, or call number `k` makes its next access. -/
inductive Ev (Rand : Type) where
  | issue (op : Op Rand)
  | work (k : Nat)

/-- The request of an operation (janus_client.cpp L97-175) and the call that it starts. -/
def request (c : Crypto PK KS CT Rand) (cl : Client) : Op Rand → Client × Call c
  | .insert w i r => ((insertionRequest c cl w i r).2, ⟨w, .insert (insertionRequest c cl w i r).1⟩)
  | .remove w i => ((removalRequest c cl w i).2, ⟨w, .remove (removalRequest c cl w i).1⟩)
  | .search w => ((searchRequest c cl w).2, ⟨w, startSearch c (searchRequest c cl w).1⟩)

/-- One event. -/
def CSys.exec {c : Crypto PK KS CT Rand} (s : CSys c) : Ev Rand → CSys c
  | .issue op => ⟨(request c s.client op).1, s.server, s.calls ++ [(request c s.client op).2]⟩
  | .work k => match s.calls[k]? with
    | none => s
    | some call =>
      let r := work c s.server call.pc
      ⟨s.client, r.1, s.calls.set k ⟨call.kw, r.2⟩⟩

/-- All events. -/
def CSys.run {c : Crypto PK KS CT Rand} (s : CSys c) : List (Ev Rand) → CSys c
  | [] => s
  | e :: es => (s.exec e).run es

/-! ## Histories -/

/-- An insertion or a removal that is not carried out yet. -/
def Pc.isUpdate {c : Crypto PK KS CT Rand} : Pc c → Bool
  | .insert _ => true
  | .remove _ => true
  | _ => false

/-- The requests of a history, in order. -/
def issued : List (Ev Rand) → List (Op Rand)
  | [] => []
  | .issue op :: es => op :: issued es
  | .work _ :: es => issued es

/-- No call on `w` is under way. -/
def idle {c : Crypto PK KS CT Rand} (s : CSys c) (w : Str) : Bool :=
  s.calls.all (fun x => x.kw != w || x.pc.over)

/-- No search of `w` is under way. -/
def unsearched {c : Crypto PK KS CT Rand} (s : CSys c) (w : Str) : Bool :=
  s.calls.all (fun x => x.kw != w || x.pc.over || x.pc.isUpdate)

/-- A caller who makes no search of a keyword before all calls on this keyword have returned, and no
insertion or removal before the searches of the keyword have returned. -/
def careful {c : Crypto PK KS CT Rand} (s : CSys c) : Ev Rand → Bool
  | .issue (.search w) => idle s w
  | .issue (.insert w _ _) => unsearched s w
  | .issue (.remove w _) => unsearched s w
  | .work _ => true

/-- All requests of the history are made by such a caller. -/
def allCareful {c : Crypto PK KS CT Rand} (s : CSys c) : List (Ev Rand) → Bool
  | [] => true
  | e :: es => careful s e && allCareful (s.exec e) es

end Verif.Janus.Conc
