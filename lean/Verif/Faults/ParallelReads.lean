import Verif.Faults.Model
import Verif.Sophos.Parallel

/-!
# Model of the parallel Sophos searches whose reads fail

`/repo/lib/sophos/sophos_server.cpp` L129-482: the tasks of the search threads are those of `Verif.Sophos.Parallel`;
here the `Get` of any of them may fail (`/repo/lib/include/sse/schemes/utils/rocksdb_wrapper.hpp` L149-163 returns
`false`, as for a missing entry).
-/

namespace Verif.Faults

open Verif Sophos ThreadPool

variable {Kw Seed ST DK : Type}

/-- The lookup of a token by `access_job` (sophos_server.cpp L147-174, L332-360) or by the search thread itself
(L239-270, L416-444), together with whether its `Get` fails: after a failed `Get` only a message is logged. -/
def accessF (c : Sophos.Crypto Kw Seed ST DK) (edb : Edb) (k : DK) (task : ST × Bool) : Option Index :=
  if task.2 then none else access c edb k task.1

/-- The parallel searches of `SophosServer`, with their numbers of threads. -/
inductive Variant where
  /-- `search_parallel` (L129-223); `hw`: `std::thread::hardware_concurrency()` -/
  | pooled (hw : Nat) (accessThreads : UInt8)
  /-- `search_parallel_light` (L225-310) and `search_parallel_light_callback` (L402-482) -/
  | light (threads : UInt8)
  /-- `search_parallel_callback` (L312-400) -/
  | callback (rsaThreads accessThreads postThreads : UInt8)

/-- At least one thread of each kind, and at most 255. -/
def Variant.Ok : Variant → Prop
  | .pooled hw a => hw ≤ 255 ∧ a ≠ 0
  | .light t => t ≠ 0
  | .callback r a p => r ≠ 0 ∧ a ≠ 0 ∧ p ≠ 0

/-- The search tokens handled by the threads of a variant, if the threads end. -/
def Variant.jobs (c : Sophos.Crypto Kw Seed ST DK) (r : SearchReq ST DK) : Variant → Option (List (List ST))
  | .pooled hw _ => allJobs (parallelJobs c hw r)
  | .light t => allJobs (countedJobs c t r)
  | .callback rsa _ _ => allJobs (countedJobs c rsa r)

/-- A complete run of the threads whose tasks are `Ls`, with the results or the trace of the callback `res`. -/
def Variant.Schedule (c : Sophos.Crypto Kw Seed ST DK) (edb : Edb) (k : DK) (Ls : List (List (ST × Bool)))
    (res : List Index) : Variant → Prop
  | .pooled _ a => ∃ s, SeqReachable (accessF c edb k) a.toNat Ls s ∧ s.pool.joiner = .returned ∧ res = s.pool.emitted
  | .light _ => ∃ s, ThreadsReachable (accessF c edb k) Ls s ∧ s.Done ∧ res = s.emitted
  | .callback _ a p => ∃ s : Pipe (ST × Bool) Index Index,
      PipeReachable (accessF c edb k) some a.toNat p.toNat Ls s ∧ s.B.joiner = .returned ∧ res = s.B.emitted

/-- A complete run of a parallel search some of whose reads fail: each task comes with the fate of its read. -/
def ReadsRun (c : Sophos.Crypto Kw Seed ST DK) (edb : Edb) (v : Variant) (r : SearchReq ST DK) (res : List Index) :
    Prop :=
  ∃ Ls, v.jobs c r = some (Ls.map (·.map Prod.fst)) ∧ v.Schedule c edb r.derivationKey Ls res

/-- The state after a history of operations with failures. -/
def sophosAfter [DecidableEq Kw] (c : Sophos.Crypto Kw Seed ST DK) (g : ST × DK) (ops : List (Op Kw Index)) : Sys Kw :=
  ops.foldl (fun s op => (sophosStep c g s op).1) Sys.init

end Verif.Faults
