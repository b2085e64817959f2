import Verif.Sophos.ParallelProps
import Verif.Diana.ParallelProps

/-!
# The search handlers of the gRPC services

Model of the choice of a search algorithm by `sync_search` and `async_search`
(`/repo/lib/sophos/sophos_server_runner.cpp` L161-246, `/repo/lib/diana/server_runner.cpp` L203-293). The replies are
the results in the order in which they are written to the stream. `hw` is the value of
`std::thread::hardware_concurrency()`; the standard allows it to be 0. The calls of `Write` do not fail.
-/

namespace Verif.Runner

variable {Kw Seed ST DK : Type}

/-- Replies of `SophosImpl::search` to a request. The thread counts of `search_parallel_callback` and of
`search_parallel_light_callback` are of type `uint8_t` (sophos_server.hpp), so that `hw` is reduced modulo 256. -/
def SophosReplies (c : Sophos.Crypto Kw Seed ST DK) (hw : Nat) (async : Bool) (edb : Sophos.Edb)
    (r : Sophos.SearchReq ST DK) (res : List Index) : Prop :=
  if async then
    if 40 ≤ r.addCount.toNat then Sophos.SearchParallelCallbackRun c edb (UInt8.ofNat hw) 8 1 r res
    else if 2 ≤ r.addCount.toNat then Sophos.SearchParallelLightRun c edb (UInt8.ofNat hw) r res
    else res = Sophos.searchCallback c edb r
  else Sophos.SearchParallelRun c edb hw 2 r res

/-- Replies of `DianaImpl::search` to a request; results are never deleted (default argument of
`search_parallel` and `search`). -/
def DianaReplies (c : Diana.Crypto Kw Index) (hw : Nat) (async : Bool) (edb : Diana.Edb Index)
    (r : Diana.SearchReq c) (res : List Index) : Prop :=
  if async then
    if 2 ≤ r.addCount.toNat then
      ∃ trace edb', Diana.ParallelRun c edb r (UInt8.ofNat hw) false trace edb' ∧ res = Diana.callbackResult trace
    else ∃ edb', Diana.search c edb r false = some (res, edb')
  else
    if r.addCount = 0 then res = []
    else ∃ trace edb', Diana.ParallelRun c edb r 8 false trace edb' ∧
      res = Diana.vectorResult 0 r.addCount (List.replicate r.addCount.toNat 0) trace

end Verif.Runner
