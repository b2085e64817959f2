import Verif.Sophos.Parallel
import Verif.Diana.Model

/-!
# Searches that run while updates are stored

The gRPC servers run every handler on a thread of its own. The handlers of updates exclude each
other only (`update_mtx_`, sophos_server_runner.cpp L255 and `/repo/lib/diana/server_runner.cpp`
L302), `bulk_insert` takes no lock (L271-294 and L319-344), and the handlers of searches take none
that concerns the database (L151-246 and L192-293). So updates may be stored between any two lookups of a search.
`Get` and `Put` of RocksDB are atomic. Other searches may be left out, since
the searches of the services delete nothing.
-/

namespace Verif.Live

open Verif ThreadPool

/-! ## Sophos -/

section Sophos

open Sophos

variable {Kw Seed ST DK σ : Type}

/-- `SophosServer::search` and `search_callback` (sophos_server.cpp L46-127) with `n` lookups left and token
`st`. The updates `us[0]` are stored before the next lookup, `us[1]` before the one after it, and so on. -/
def sophosLoop (c : Crypto Kw Seed ST DK) (k : DK) : Nat → ST → Edb → List (List UpdateReq) → List Index
  | 0, _, _, _ => []
  | n + 1, st, edb, us =>
    let edb := serverRun edb (us.headD [])
    (access c edb k st).toList ++ sophosLoop c k n (c.eval st) edb us.tail

/-- The sequential search of a request -/
def sophosSearch (c : Crypto Kw Seed ST DK) (r : SearchReq ST DK) (edb : Edb) (us : List (List UpdateReq)) :
    List Index :=
  sophosLoop c r.derivationKey r.addCount.toNat r.token edb us

/-- The server during a search by threads: their state, the database, the updates stored since the
search began, the results found but not yet reported, and the results reported. -/
structure State (σ : Type) where
  threads : σ
  edb : Edb
  stored : List UpdateReq
  held : List Index
  results : List Index

/-- One step. `R` are the steps of the threads and `looked` the tokens they have looked up. A lookup reads
the database as it is at that moment; the result is reported later, by the thread itself
(sophos_server.cpp L174-176, L257-259, L432) or by the post pool (L350). -/
inductive Step (c : Crypto Kw Seed ST DK) (k : DK) (R : σ → σ → Prop) (looked : σ → List ST) :
    State σ → State σ → Prop
  /-- an update is stored -/
  | put (s : State σ) (r : UpdateReq) :
      Step c k R looked s { s with edb := serverInsert s.edb r, stored := s.stored ++ [r] }
  /-- a step of the threads without lookup -/
  | move (s : State σ) (x : σ) (h : R s.threads x) (hl : looked x = looked s.threads) :
      Step c k R looked s { s with threads := x }
  /-- a lookup -/
  | look (s : State σ) (x : σ) (st : ST) (h : R s.threads x) (hl : looked x = looked s.threads ++ [st]) :
      Step c k R looked s { s with threads := x, held := s.held ++ (access c s.edb k st).toList }
  /-- a result is reported -/
  | report (s : State σ) (pre post : List Index) (v : Index) (h : s.held = pre ++ v :: post) :
      Step c k R looked s { s with held := pre ++ post, results := s.results ++ [v] }

/-- The search begins. -/
def State.init (x : σ) (edb : Edb) : State σ := ⟨x, edb, [], [], []⟩

/-- A complete run of job threads that feed an access pool (sophos_server.cpp L129-223 and L312-400): the
updates stored meanwhile and the results. The tasks of the pool are lookups, so that the effects of
the pool are the tokens looked up. Simplification: the post pool of `search_parallel_callback` is the list of
results held; C17 says that it runs each of its tasks once. -/
def PoolRun (c : Crypto Kw Seed ST DK) (edb : Edb) (jobs : List (Option (List ST))) (accessThreads : UInt8)
    (r : SearchReq ST DK) (stored : List UpdateReq) (res : List Index) : Prop :=
  ∃ Ls s, allJobs jobs = some Ls ∧
    Relation.ReflTransGen (Step c r.derivationKey (fun a b : ThreadPool.Sys ST ST => ∃ l, SeqStep some l a b)
      (fun x => x.pool.emitted)) (State.init (ThreadPool.Sys.init accessThreads.toNat Ls) edb) s ∧
    s.threads.pool.joiner = .returned ∧ s.held = [] ∧ stored = s.stored ∧ res = s.results

/-- `search_parallel` (sophos_server.cpp L129-223) -/
def SearchParallelRun (c : Crypto Kw Seed ST DK) (edb : Edb) (hw : Nat) (accessThreads : UInt8)
    (r : SearchReq ST DK) (stored : List UpdateReq) (res : List Index) : Prop :=
  PoolRun c edb (parallelJobs c hw r) accessThreads r stored res

/-- `search_parallel_callback` (sophos_server.cpp L312-400) -/
def SearchParallelCallbackRun (c : Crypto Kw Seed ST DK) (edb : Edb) (rsaThreads accessThreads : UInt8)
    (r : SearchReq ST DK) (stored : List UpdateReq) (res : List Index) : Prop :=
  PoolRun c edb (countedJobs c rsaThreads r) accessThreads r stored res

/-- `search_parallel_light` (sophos_server.cpp L225-310) and `search_parallel_light_callback` (L402-482): the
threads do the lookups. -/
def SearchParallelLightRun (c : Crypto Kw Seed ST DK) (edb : Edb) (threadCount : UInt8)
    (r : SearchReq ST DK) (stored : List UpdateReq) (res : List Index) : Prop :=
  ∃ Ls s, allJobs (countedJobs c threadCount r) = some Ls ∧
    Relation.ReflTransGen (Step c r.derivationKey (ThreadsStep (α := ST) some) (fun x => x.emitted))
      (State.init ⟨Ls, []⟩ edb) s ∧
    s.threads.Done ∧ s.held = [] ∧ stored = s.stored ∧ res = s.results

end Sophos

/-! ## Diana -/

section Diana

open Diana

variable {Kw V : Type} [DecidableEq Kw]

/-- Storing a list of updates -/
def dianaRun (edb : Edb V) (us : List (UpdateReq V)) : Edb V := us.foldl serverInsert edb

/-- The calls of `eval_callback` in `DianaServer::search` (diana_server.hpp L172-180), without deletion. The
updates `us[0]` are stored before the first lookup, `us[1]` before the second, and so on. -/
def dianaLoop (c : Crypto Kw V) : List (Nat × Leaf) → Edb V → List (List (UpdateReq V)) → List V
  | [], _, _ => []
  | (_, leaf) :: rest, edb, us =>
    let edb := dianaRun edb (us.headD [])
    (getUnmask c edb leaf false).1.toList ++ dianaLoop c rest edb us.tail

/-- `DianaServer::search` (diana_server.hpp L146-183); `none` is an exception. -/
def dianaSearch (c : Crypto Kw V) (req : SearchReq c) (edb : Edb V) (us : List (List (UpdateReq V))) :
    Option (List V) :=
  if req.addCount = 0 then some []
  else (evalRange c req.rcprf 0 (c.maxLeaf req.rcprf)).map (fun leaves => dianaLoop c leaves edb us)

/-- The search threads with the database, and the updates stored since the search began -/
structure ScanState (V : Type) where
  scan : ScanSys V
  stored : List (UpdateReq V)

/-- A step of a search thread, or an update is stored. -/
inductive LiveScan (c : Crypto Kw V) : ScanState V → ScanState V → Prop
  | put (s : ScanState V) (r : UpdateReq V) :
      LiveScan c s ⟨{ s.scan with edb := serverInsert s.scan.edb r }, s.stored ++ [r]⟩
  | scan (s : ScanState V) (x : ScanSys V) (h : ScanStep c false s.scan x) : LiveScan c s { s with scan := x }

/-- A complete run of `search_parallel` (diana_server.hpp L255-313) without deletion: the updates stored meanwhile and
the calls of the callback -/
def DianaParallelRun (c : Crypto Kw V) (edb : Edb V) (req : SearchReq c) (threadsCount : UInt8)
    (stored : List (UpdateReq V)) (trace : List (Nat × V × Nat)) : Prop :=
  ∃ Ls s, jobs c req threadsCount = some Ls ∧
    Relation.ReflTransGen (LiveScan c) ⟨ScanSys.init edb Ls, []⟩ s ∧ s.scan.Done ∧
    stored = s.stored ∧ trace = s.scan.trace

/-- The database after the updates at positions `D` of a client that made the insertions `H` were stored -/
def dianaDeliver (c : Crypto Kw V) (H : List (Kw × V)) (D : List Nat) : Edb V :=
  dianaRun Map.empty (D.filterMap (fun k => (clientRun c Map.empty H).1[k]?))

end Diana

end Verif.Live
