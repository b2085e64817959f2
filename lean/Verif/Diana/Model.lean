import Verif.Common.Map
import Verif.Common.XorMask
import Verif.Counter.Model

/-!
# Model of the Diana scheme (client and server)

`/repo/lib/include/sse/schemes/diana/diana_client.hpp`, `diana_server.hpp`, `types.hpp`,
`/repo/lib/diana/diana_common.cpp`.  The scheme is generic in the type `V` of the stored values
(`uint64_t` for Diana itself, ciphertexts for Janus).
-/

namespace Verif.Diana

open Verif

/-- 16-byte update tokens and keyword indexes (`kUpdateTokenSize`, diana/types.hpp L30,
`kKeywordIndexSize`, diana_client.hpp L48). -/
abbrev Token := Vector UInt8 16

/-- 32-byte leaf tokens (`search_token_key_type`, diana/types.hpp L29-37; the size is that of
`RCPrf<kKeySize>` with `kKeySize` of diana_client.hpp L49). -/
abbrev Leaf := Vector UInt8 32

/-- The external cryptography used by Diana.  `RK` is the type of range-constrained PRF keys,
`CK` that of constrained keys. -/
structure Crypto (Kw V : Type) where
  RK : Type
  CK : Type
  /-- `get_keyword_index`: hash cut to 16 bytes (diana_client.hpp L110-120). -/
  hash : Kw → Token
  /-- `kw_token_prf_.prf(kw_index)` (diana_client.hpp L160). -/
  kwToken : Token → Vector UInt8 32
  /-- `RCPrf(root_prf_.derive_key(kw_index), kTreeDepth)` (diana_client.hpp L157-158). -/
  root : Token → RK
  /-- `RCPrf::eval`. -/
  eval : RK → Nat → Leaf
  /-- `RCPrf::constrain`. -/
  constrain : RK → Nat → Nat → CK
  /-- evaluation of a constrained PRF at a leaf; `none` is an exception (leaf out of range). -/
  ceval : CK → Nat → Option Leaf
  /-- `ConstrainedRCPrf::max_leaf`. -/
  maxLeaf : CK → Nat
  /-- `ConstrainedRCPrf({})`, put in empty requests (diana_client.hpp L150-151). -/
  emptyCK : CK
  /-- `prg.derive(0, 16)` of `gen_update_token_mask` (diana_common.cpp L35). -/
  token : Leaf → Token
  /-- `prg.derive(16, sizeof(V))` of `gen_update_token_mask` (diana_common.cpp L36). -/
  mask : Leaf → V
  /-- `xor_mask` (diana/types.hpp L79-120), see also C39. -/
  xor : V → V → V
  xor_xor : ∀ x m, xor (xor x m) m = x
  maxLeaf_constrain : ∀ r b, b < 2 ^ 32 → maxLeaf (constrain r 0 b) = b
  /-- a constrained key agrees with the master key on its range. -/
  ceval_constrain : ∀ r b x, b < 2 ^ 32 → x ≤ b → ceval (constrain r 0 b) x = some (eval r x)

variable {Kw V : Type} [DecidableEq Kw]

/-! ## Messages -/

/-- `SearchRequest` (diana/types.hpp L43-71). -/
structure SearchReq (c : Crypto Kw V) where
  kwToken : Vector UInt8 32
  rcprf : c.CK
  addCount : UInt32

/-- `UpdateRequest` (diana/types.hpp L73-78). -/
structure UpdateReq (V : Type) where
  token : Token
  index : V

/-! ## Client -/

/-- `DianaClient::get_match_count` (diana_client.hpp L122-130). -/
def getMatchCount (counters : Map Kw UInt32) (w : Kw) : UInt32 :=
  match Counter.get counters w with
  | some v => v
  | none => 0

/-- `DianaClient::search_request` (diana_client.hpp L132-164); the log output is not modelled. -/
def searchRequest (c : Crypto Kw V) (counters : Map Kw UInt32) (w : Kw) : SearchReq c :=
  match Counter.get counters w with
  | none => { kwToken := Vector.replicate 32 0, rcprf := c.emptyCK, addCount := 0 }
  | some kwCounter =>
    { kwToken := c.kwToken (c.hash w)
      rcprf := c.constrain (c.root (c.hash w)) 0 kwCounter.toNat
      addCount := kwCounter + 1 }

/-- The part of `insertion_request` after the counter was obtained (diana_client.hpp L188-206,
also the loop body L218-248 of `bulk_insertion_request`). -/
def requestFor (c : Crypto Kw V) (w : Kw) (i : V) (kwCounter : UInt32) : UpdateReq V :=
  let st := c.eval (c.root (c.hash w)) kwCounter.toNat
  { token := c.token st, index := c.xor i (c.mask st) }

/-- `DianaClient::insertion_request` (diana_client.hpp L166-207). -/
def insertionRequest (c : Crypto Kw V) (counters : Map Kw UInt32) (w : Kw) (i : V) :
    UpdateReq V × Map Kw UInt32 :=
  let (kwCounter, counters') := Counter.getAndIncrement counters w
  (requestFor c w i kwCounter, counters')

/-- `DianaClient::get_counters_and_increment` (diana_client.hpp L253-278): the loop, with the
list `res` built so far. -/
def getCountersAndIncrement :
    Map Kw UInt32 → List (Kw × V) → List (Kw × V × UInt32) → List (Kw × V × UInt32) × Map Kw UInt32
  | m, [], res => (res, m)
  | m, (w, i) :: rest, res =>
    let (v, m') := Counter.getAndIncrement m w
    getCountersAndIncrement m' rest (res ++ [(w, i, v)])

/-- `DianaClient::bulk_insertion_request` (diana_client.hpp L209-251). -/
def bulkInsertionRequest (c : Crypto Kw V) (m : Map Kw UInt32) (L : List (Kw × V)) :
    List (UpdateReq V) × Map Kw UInt32 :=
  let (cl, m') := getCountersAndIncrement m L []
  (cl.foldl (fun reqs e => reqs ++ [requestFor c e.1 e.2.1 e.2.2]) [], m')

/-- `DianaClient::remove_keyword` (diana_client.hpp L280-284). -/
def removeKeyword (counters : Map Kw UInt32) (w : Kw) : Map Kw UInt32 :=
  Counter.removeKey counters w

/-! ## Server -/

/-- The encrypted database `edb_`. -/
abbrev Edb (V : Type) := Map Token V

/-- `DianaServer::insert` (diana_server.hpp L315-323). -/
def serverInsert (edb : Edb V) (r : UpdateReq V) : Edb V := edb.put r.token r.index

/-- `DianaServer::retrieve_entry` (diana_server.hpp L83-93). -/
def retrieveEntry (edb : Edb V) (key : Token) (deleteKey : Bool) : Option V × Edb V :=
  match edb key with
  | some v => (some v, if deleteKey then edb.erase key else edb)
  | none => (none, edb)

/-- `DianaServer::get_unmask` (diana_server.hpp L110-144). -/
def getUnmask (c : Crypto Kw V) (edb : Edb V) (leaf : Leaf) (deleteKey : Bool) :
    Option V × Edb V :=
  let (found, edb') := retrieveEntry edb (c.token leaf) deleteKey
  (found.map (fun v => c.xor v (c.mask leaf)), edb')

/-- `ConstrainedRCPrf::eval_range(a, b, callback)`: the arguments of the successive calls of the
callback; `none` is an exception. -/
def evalRange (c : Crypto Kw V) (ck : c.CK) (a b : Nat) : Option (List (Nat × Leaf)) :=
  if b < a then none
  else (List.range' a (b + 1 - a)).mapM (fun i => (c.ceval ck i).map (fun l => (i, l)))

/-- The calls of `eval_callback` in `DianaServer::search` (diana_server.hpp L172-180) for the given
leaves: results passed to `post_callback`, and the database afterwards. -/
def searchLoop (c : Crypto Kw V) (del : Bool) : Edb V → List (Nat × Leaf) → List V × Edb V
  | edb, [] => ([], edb)
  | edb, (_, leaf) :: rest =>
    let (r, edb') := getUnmask c edb leaf del
    let (rs, edb'') := searchLoop c del edb' rest
    (r.toList ++ rs, edb'')

/-- `DianaServer::search` (diana_server.hpp L146-183, both overloads: the callback appends to the
list).  `none`: an exception is thrown. -/
def search (c : Crypto Kw V) (edb : Edb V) (req : SearchReq c) (del : Bool) :
    Option (List V × Edb V) :=
  if req.addCount = 0 then some ([], edb)
  else (evalRange c req.rcprf 0 (c.maxLeaf req.rcprf)).map (fun leaves => searchLoop c del edb leaves)

/-! ## Parallel server searches -/

/-- The loop of `search_parallel` that splits the positions (diana_server.hpp L295-308): `k` threads
still to launch, thread number `t`, bounds `min`, `max`.  Each entry is the pair
`(min, std::min(max, add_count) - 1)` given to the thread. -/
def splitLoop (addCount step remaining : Nat) : Nat → Nat → Nat → Nat → List (Nat × Nat)
  | 0, _, _, _ => []
  | k + 1, t, mn, mx =>
    let mx' := if t < remaining then mx + 1 else mx
    (mn, Nat.min mx' addCount - 1) :: splitLoop addCount step remaining k (t + 1) mx' (mx' + step)

/-- The ranges of positions given to the threads (diana_server.hpp L288-308), for a positive
`add_count`.  `none`: division by zero (`threads_count = 0`, excluded by an `assert` only). -/
def ranges (threadsCount : UInt8) (addCount : UInt32) : Option (List (Nat × Nat)) :=
  let tc := Nat.min (Nat.min threadsCount.toNat addCount.toNat) 0xFF
  if tc = 0 then none
  else some (splitLoop addCount.toNat (addCount.toNat / tc) (addCount.toNat % tc) tc 0 0
    (addCount.toNat / tc))

/-- The leaves handled by each thread (the job lambda, diana_server.hpp L267-284). -/
def jobs (c : Crypto Kw V) (req : SearchReq c) (threadsCount : UInt8) :
    Option (List (List (Nat × Leaf))) :=
  if req.addCount = 0 then some []
  else (ranges threadsCount req.addCount).bind
    (fun rs => rs.mapM (fun r => evalRange c req.rcprf r.1 r.2))

/-- A search thread: leaves still to handle, and an entry found but not yet removed. -/
structure Worker (V : Type) where
  todo : List (Nat × Leaf)
  pending : Option (Nat × V × Token)

/-- The database shared by the search threads and the trace of the calls
`post_callback(leaf_index, index, t_id)`. -/
structure ScanSys (V : Type) where
  edb : Edb V
  workers : List (Worker V)
  trace : List (Nat × V × Nat)

/-- One atomic step of a search thread: `get_unmask` is a `Get`, possibly followed by a `Delete`;
then the callback is called. -/
inductive ScanStep (c : Crypto Kw V) (del : Bool) : ScanSys V → ScanSys V → Prop
  /-- `edb_.get` finds nothing. -/
  | miss {s : ScanSys V} (t : Nat) (i : Nat) (leaf : Leaf) (rest : List (Nat × Leaf))
      (h : s.workers[t]? = some ⟨(i, leaf) :: rest, none⟩) (hm : s.edb (c.token leaf) = none) :
      ScanStep c del s { s with workers := s.workers.set t ⟨rest, none⟩ }
  /-- `edb_.get` finds an entry, no deletion requested: the callback is called. -/
  | hit {s : ScanSys V} (t : Nat) (i : Nat) (leaf : Leaf) (rest : List (Nat × Leaf)) (v : V)
      (h : s.workers[t]? = some ⟨(i, leaf) :: rest, none⟩) (hm : s.edb (c.token leaf) = some v)
      (hd : del = false) :
      ScanStep c del s { s with
        workers := s.workers.set t ⟨rest, none⟩
        trace := s.trace ++ [(i, c.xor v (c.mask leaf), t)] }
  /-- `edb_.get` finds an entry which will be removed. -/
  | hitDelete {s : ScanSys V} (t : Nat) (i : Nat) (leaf : Leaf) (rest : List (Nat × Leaf)) (v : V)
      (h : s.workers[t]? = some ⟨(i, leaf) :: rest, none⟩) (hm : s.edb (c.token leaf) = some v)
      (hd : del = true) :
      ScanStep c del s { s with
        workers := s.workers.set t ⟨rest, some (i, c.xor v (c.mask leaf), c.token leaf)⟩ }
  /-- `edb_.remove`, then the callback. -/
  | remove {s : ScanSys V} (t : Nat) (i : Nat) (v : V) (key : Token) (rest : List (Nat × Leaf))
      (h : s.workers[t]? = some ⟨rest, some (i, v, key)⟩) :
      ScanStep c del s
        { edb := s.edb.erase key
          workers := s.workers.set t ⟨rest, none⟩
          trace := s.trace ++ [(i, v, t)] }

/-- Threads about to handle `Ls`. -/
def ScanSys.init (edb : Edb V) (Ls : List (List (Nat × Leaf))) : ScanSys V :=
  { edb := edb, workers := Ls.map (fun L => ⟨L, none⟩), trace := [] }

/-- All the threads have finished (they are joined, diana_server.hpp L310-312). -/
def ScanSys.Done (s : ScanSys V) : Prop := ∀ w ∈ s.workers, w.todo = [] ∧ w.pending = none

/-- A complete run of `search_parallel(req, tl_callback, threads_count, delete_results)`
(diana_server.hpp L255-313): trace of callbacks and final database. -/
def ParallelRun (c : Crypto Kw V) (edb : Edb V) (req : SearchReq c) (threadsCount : UInt8)
    (del : Bool) (trace : List (Nat × V × Nat)) (edb' : Edb V) : Prop :=
  ∃ Ls s, jobs c req threadsCount = some Ls ∧
    Relation.ReflTransGen (ScanStep c del) (ScanSys.init edb Ls) s ∧ s.Done ∧
    trace = s.trace ∧ edb' = s.edb

/-- `search_parallel` returning a list (diana_server.hpp L185-218): one list per thread, filled by
the callbacks of that thread, spliced in the order of the threads. -/
def listResult (threadsCount : UInt8) (trace : List (Nat × V × Nat)) : List V :=
  (List.range threadsCount.toNat).flatMap
    (fun t => (trace.filter (fun e => e.2.2 = t)).map (fun e => e.2.1))

/-- `search_parallel` filling a vector (diana_server.hpp L220-240); `zero` is the value given by
`resize` to new slots. -/
def vectorResult (zero : V) (addCount : UInt32) (results : List V) (trace : List (Nat × V × Nat)) :
    List V :=
  let results := if results.length < addCount.toNat
    then results ++ List.replicate (addCount.toNat - results.length) zero else results
  trace.foldl (fun rs e => if e.1 < rs.length then rs.set e.1 e.2.1 else rs) results

/-- `search_parallel` with a basic callback (diana_server.hpp L242-253): its trace. -/
def callbackResult (trace : List (Nat × V × Nat)) : List V := trace.map (fun e => e.2.1)

/-! ## Whole systems -/

/-- Insertions requested one by one. -/
def clientRun (c : Crypto Kw V) :
    Map Kw UInt32 → List (Kw × V) → List (UpdateReq V) × Map Kw UInt32
  | m, [] => ([], m)
  | m, (w, i) :: rest =>
    let (r, m') := insertionRequest c m w i
    let (rs, m'') := clientRun c m' rest
    (r :: rs, m'')

/-- An operation on a Diana client and server. -/
inductive Op (Kw V : Type) where
  /-- insertion delivered to the server -/
  | insert (w : Kw) (i : V)
  /-- insertion whose update never reaches the server -/
  | lost (w : Kw) (i : V)
  /-- search without deletion -/
  | search (w : Kw)
  /-- search with deletion; the client keeps its counter -/
  | searchDelete (w : Kw)
  /-- search with deletion, and the client forgets the keyword (as `JanusClient::search_request`
  does, `/repo/lib/janus/janus_client.cpp` L115-128) -/
  | searchForget (w : Kw)

/-- State of client and server. -/
structure Sys (Kw V : Type) where
  counters : Map Kw UInt32
  edb : Edb V

/-- Fresh system. -/
def Sys.init : Sys Kw V := { counters := Map.empty, edb := Map.empty }

/-- Execution of one operation: new state and result of the search if there is one.  The outer
`none` is an exception. -/
def step (c : Crypto Kw V) (s : Sys Kw V) : Op Kw V → Option (Sys Kw V × Option (List V))
  | .insert w i =>
    let (r, m) := insertionRequest c s.counters w i
    some ({ counters := m, edb := serverInsert s.edb r }, none)
  | .lost w i =>
    let (_, m) := insertionRequest c s.counters w i
    some ({ s with counters := m }, none)
  | .search w =>
    (search c s.edb (searchRequest c s.counters w) false).map
      (fun r => ({ s with edb := r.2 }, some r.1))
  | .searchDelete w =>
    (search c s.edb (searchRequest c s.counters w) true).map
      (fun r => ({ s with edb := r.2 }, some r.1))
  | .searchForget w =>
    (search c s.edb (searchRequest c s.counters w) true).map
      (fun r => ({ counters := removeKeyword s.counters w, edb := r.2 }, some r.1))

/-- Execution of a history: final state and search results in order. -/
def run (c : Crypto Kw V) : Sys Kw V → List (Op Kw V) → Option (Sys Kw V × List (List V))
  | s, [] => some (s, [])
  | s, op :: ops =>
    (step c s op).bind fun (s', out) =>
      (run c s' ops).map fun (s'', outs) => (s'', out.toList ++ outs)

end Verif.Diana
