import Verif.Sophos.Model
import Verif.ThreadPool.Model

/-!
# Model of the parallel Sophos searches

`/repo/lib/sophos/sophos_server.cpp` L129-482.  The work of a search thread is the list of search
tokens it looks up (or enqueues for lookup); the scheduling of the threads and of the pools is that
of `Verif.ThreadPool`.
-/

namespace Verif.Sophos

open Verif ThreadPool

variable {Kw Seed ST DK : Type}

/-- The loop `for (size_t i = index + N; i < max; i += N)` of the search jobs (L197-203, L289-293,
L378-382, L463-467), for a stride `N = n + 1 > 0`: the tokens it handles, starting with counter `i`
and token `st`. -/
def strideLoop (c : Crypto Kw Seed ST DK) (n max : Nat) (i : Nat) (st : ST) : List ST :=
  if i < max then
    let st' := c.eval^[n + 1] st
    st' :: strideLoop c n max (i + (n + 1)) st'
  else []
termination_by max - i

/-- `rsa_job(index, max, N)` (L182-204, L365-383) and `job(index, max, N)` (L275-294, L449-468).
`index` and `N` are `uint8_t`.  `none`: the loop never ends (its increment `N` is 0). -/
def job (c : Crypto Kw Seed ST DK) (st : ST) (index : UInt8) (max : Nat) (N : UInt8) :
    Option (List ST) :=
  let local_st := if index ≠ 0 then c.eval^[index.toNat] st else st
  let first := if index.toNat < max then [local_st] else []
  if N = 0 then
    if index.toNat + N.toNat < max then none else some first
  else
    some (first ++ strideLoop c (N.toNat - 1) max (index.toNat + N.toNat) local_st)

/-- The jobs of the threads launched by `search_parallel` on a machine for which
`std::thread::hardware_concurrency()` is `hw` (L209-214): `t` and `n_rsa_threads` are converted to
`uint8_t` when the job is called. -/
def parallelJobs (c : Crypto Kw Seed ST DK) (hw : Nat) (r : SearchReq ST DK) :
    List (Option (List ST)) :=
  let n := Nat.max hw 2
  (List.range n).map fun t =>
    job c r.token (UInt8.ofNat t) r.addCount.toNat (UInt8.ofNat n)

/-- The jobs of the threads launched by `search_parallel_light` (L301-303),
`search_parallel_callback` (L390-392) and `search_parallel_light_callback` (L475-477) for a thread
count of type `uint8_t`. -/
def countedJobs (c : Crypto Kw Seed ST DK) (threadCount : UInt8) (r : SearchReq ST DK) :
    List (Option (List ST)) :=
  (List.range threadCount.toNat).map fun t =>
    job c r.token (UInt8.ofNat t) r.addCount.toNat threadCount

/-- All the jobs, if all of them terminate. -/
def allJobs (l : List (Option (List ST))) : Option (List (List ST)) := l.mapM id

/-- A complete run of `search_parallel` (L129-223) with results `res`: the job threads feed
`access_pool`, whose tasks look tokens up and append to `results`. -/
def SearchParallelRun (c : Crypto Kw Seed ST DK) (edb : Edb) (hw : Nat) (accessThreads : UInt8)
    (r : SearchReq ST DK) (res : List Index) : Prop :=
  ∃ Ls s, allJobs (parallelJobs c hw r) = some Ls ∧
    SeqReachable (access c edb r.derivationKey) accessThreads.toNat Ls s ∧
    s.pool.joiner = .returned ∧ res = s.pool.emitted

/-- A complete run of `search_parallel_light` (L225-310) with results `res`, or of
`search_parallel_light_callback` (L402-482) with callback trace `res`. -/
def SearchParallelLightRun (c : Crypto Kw Seed ST DK) (edb : Edb) (threadCount : UInt8)
    (r : SearchReq ST DK) (res : List Index) : Prop :=
  ∃ Ls s, allJobs (countedJobs c threadCount r) = some Ls ∧
    ThreadsReachable (access c edb r.derivationKey) Ls s ∧ s.Done ∧ res = s.emitted

/-- A complete run of `search_parallel_callback` (L312-400) with callback trace `res`: job threads,
`access_pool` and `post_pool`. -/
def SearchParallelCallbackRun (c : Crypto Kw Seed ST DK) (edb : Edb)
    (rsaThreads accessThreads postThreads : UInt8) (r : SearchReq ST DK) (res : List Index) : Prop :=
  ∃ Ls, ∃ s : Pipe ST Index Index, allJobs (countedJobs c rsaThreads r) = some Ls ∧
    PipeReachable (access c edb r.derivationKey) some accessThreads.toNat postThreads.toNat Ls s ∧
    s.B.joiner = .returned ∧ res = s.B.emitted

end Verif.Sophos
