import Verif.Runner.SearchRpc
import Verif.Runner.Message

/-!
# Search messages that no client would send

The search handlers of the gRPC services (`/repo/lib/sophos/sophos_server_runner.cpp` L161-246,
`/repo/lib/diana/server_runner.cpp` L202-290) for messages of any sender: the count need not be that of the key or token sent with
it. Nothing in a message binds the count to the rest: the count of Diana is outside of the wrapped key (`/repo/lib/protos/diana.proto`),
and nothing is authenticated in Sophos.

The functions of the cryptographic library throw exceptions: `ConstrainedRCPrf::eval_range` outside of the range of the key
(`ceval = none`), and maybe `TdpMultPool::eval` for arrays of bytes that are not elements of the domain (`refused`, a parameter). An
exception in the thread of the handler becomes an error status (gRPC catches it). An exception that leaves the function of a
`std::thread` calls `std::terminate`: the process of the server ends.
-/

namespace Verif.Runner.Foreign

/-- How the handler of a search ends -/
inductive Outcome where
  /-- status OK after the replies `l` -/
  | replies (l : List Index)
  /-- error status, after the replies `l` -/
  | status (l : List Index)
  /-- the process is terminated, after the replies `l` -/
  | terminated (l : List Index)
  /-- division by zero -/
  | arithmetic

variable {Kw Seed ST DK : Type}

/-! ## Diana -/

/-- A search thread: leaves which it has still to handle, and whether `eval_range` throws. -/
structure Thread where
  todo : List (Nat × Diana.Leaf)
  throws : Bool

/-- Evaluation of a key at successive positions, up to the first one that is refused -/
def evaluated (c : Diana.Crypto Kw Index) (ck : c.CK) : List Nat → Thread
  | [] => ⟨[], false⟩
  | i :: rest =>
    match c.ceval ck i with
    | none => ⟨[], true⟩
    | some leaf => ⟨(i, leaf) :: (evaluated c ck rest).todo, (evaluated c ck rest).throws⟩

/-- `ConstrainedRCPrf::eval_range(a, b, callback)` -/
def evalRange (c : Diana.Crypto Kw Index) (ck : c.CK) (a b : Nat) : Thread :=
  if b < a then ⟨[], true⟩ else evaluated c ck (List.range' a (b + 1 - a))

/-- The threads of `search_parallel` (diana_server.hpp L255-313), the calls of the callback so far, and whether the process was
terminated. -/
structure Proc where
  threads : List Thread
  trace : List (Nat × Index × Nat)
  dead : Bool

/-- One step of a thread: a lookup, followed by the callback if something is found (diana_server.hpp L267-284, L110-144), or the
exception. The library may check the range before it calls the callback, or meet the first leaf outside of the range later: the exception
comes at any moment. -/
inductive Step (c : Diana.Crypto Kw Index) (edb : Diana.Edb Index) : Proc → Proc → Prop
  | miss {s : Proc} (t i : Nat) (leaf : Diana.Leaf) (rest : List (Nat × Diana.Leaf)) (b : Bool) (hd : s.dead = false)
      (h : s.threads[t]? = some ⟨(i, leaf) :: rest, b⟩) (hm : edb (c.token leaf) = none) :
      Step c edb s { s with threads := s.threads.set t ⟨rest, b⟩ }
  | hit {s : Proc} (t i : Nat) (leaf : Diana.Leaf) (rest : List (Nat × Diana.Leaf)) (b : Bool) (v : Index) (hd : s.dead = false)
      (h : s.threads[t]? = some ⟨(i, leaf) :: rest, b⟩) (hm : edb (c.token leaf) = some v) :
      Step c edb s { s with
        threads := s.threads.set t ⟨rest, b⟩
        trace := s.trace ++ [(i, c.xor v (c.mask leaf), t)] }
  | throw {s : Proc} (t : Nat) (rest : List (Nat × Diana.Leaf)) (hd : s.dead = false) (h : s.threads[t]? = some ⟨rest, true⟩) :
      Step c edb s { s with dead := true }

/-- The threads are started (diana_server.hpp L297-308) -/
def start (c : Diana.Crypto Kw Index) (ck : c.CK) (rs : List (Nat × Nat)) : Proc :=
  { threads := rs.map (fun r => evalRange c ck r.1 r.2), trace := [], dead := false }

/-- All threads have returned (diana_server.hpp L310-312) -/
def Proc.Joined (s : Proc) : Prop := s.dead = false ∧ ∀ t ∈ s.threads, t = ⟨[], false⟩

/-- `search_parallel` with `threads` threads (diana_server.hpp L255-313), for a positive count: the calls of the callback, and whether it
ends with the termination of the process. -/
def ParallelEnd (c : Diana.Crypto Kw Index) (edb : Diana.Edb Index) (r : Diana.SearchReq c) (threads : UInt8)
    (trace : List (Nat × Index × Nat)) (dead : Bool) : Prop :=
  ∃ rs s, Diana.ranges threads r.addCount = some rs ∧ Relation.ReflTransGen (Step c edb) (start c r.rcprf rs) s ∧
    trace = s.trace ∧ if dead then s.dead = true else s.Joined

/-- What the lookups for the given leaves find (diana_server.hpp L172-180) -/
def lookups (c : Diana.Crypto Kw Index) (edb : Diana.Edb Index) (l : List (Nat × Diana.Leaf)) : List Index :=
  l.filterMap (fun e => (edb (c.token e.2)).map (fun v => c.xor v (c.mask e.2)))

/-- `DianaImpl::search` (server_runner.cpp L191-290) for a request; the flag tells if the search is asynchronous. `hw` is
`std::thread::hardware_concurrency()`, `memory` is the number of bytes that can be allocated for the vector of results. -/
inductive DianaOutcome (c : Diana.Crypto Kw Index) (memory hw : Nat) (edb : Diana.Edb Index) (r : Diana.SearchReq c) : Bool → Outcome → Prop
  /-- L277-281: in parallel from two expected results on -/
  | callbacks (trace : List (Nat × Index × Nat)) (hc : 2 ≤ r.addCount.toNat) (h : ParallelEnd c edb r (UInt8.ofNat hw) trace false) :
      DianaOutcome c memory hw edb r true (.replies (trace.map (fun e => e.2.1)))
  | callbacksTerminated (trace : List (Nat × Index × Nat)) (hc : 2 ≤ r.addCount.toNat)
      (h : ParallelEnd c edb r (UInt8.ofNat hw) trace true) :
      DianaOutcome c memory hw edb r true (.terminated (trace.map (fun e => e.2.1)))
  | callbacksZero (hc : 2 ≤ r.addCount.toNat) (h : Diana.ranges (UInt8.ofNat hw) r.addCount = none) :
      DianaOutcome c memory hw edb r true .arithmetic
  /-- L284 and diana_server.hpp L160-170: nothing is evaluated if no result is expected -/
  | nothing (hc : r.addCount.toNat = 0) : DianaOutcome c memory hw edb r true (.replies [])
  /-- L284 and diana_server.hpp L172-183: all leaves of the key are evaluated -/
  | one (hc : r.addCount.toNat = 1) (h : (evalRange c r.rcprf 0 (c.maxLeaf r.rcprf)).throws = false) :
      DianaOutcome c memory hw edb r true (.replies (lookups c edb (evalRange c r.rcprf 0 (c.maxLeaf r.rcprf)).todo))
  | oneThrows (k : Nat) (hc : r.addCount.toNat = 1) (h : (evalRange c r.rcprf 0 (c.maxLeaf r.rcprf)).throws = true) :
      DianaOutcome c memory hw edb r true (.status (lookups c edb ((evalRange c r.rcprf 0 (c.maxLeaf r.rcprf)).todo.take k)))
  /-- L221-222 -/
  | empty (hc : r.addCount.toNat = 0) : DianaOutcome c memory hw edb r false (.replies [])
  /-- L217: `std::bad_alloc` -/
  | allocation (hc : r.addCount.toNat ≠ 0) (h : memory < 8 * r.addCount.toNat) : DianaOutcome c memory hw edb r false (.status [])
  /-- L224-234: eight threads, the results are written when all of them have returned. -/
  | vector (trace : List (Nat × Index × Nat)) (hc : r.addCount.toNat ≠ 0) (hm : 8 * r.addCount.toNat ≤ memory)
      (h : ParallelEnd c edb r 8 trace false) :
      DianaOutcome c memory hw edb r false
        (.replies (Diana.vectorResult 0 r.addCount (List.replicate r.addCount.toNat 0) trace))
  | vectorTerminated (trace : List (Nat × Index × Nat)) (hc : r.addCount.toNat ≠ 0) (hm : 8 * r.addCount.toNat ≤ memory)
      (h : ParallelEnd c edb r 8 trace true) : DianaOutcome c memory hw edb r false (.terminated [])

/-- `DianaImpl::search` for a message: the conversion (L367-383, an exception if the key cannot be unwrapped), then the search. The
keyword token is not used by the server. Keyword tokens of more than 32 bytes are undefined behaviour, see C42. -/
def DianaServes (c : Diana.Crypto Kw Index) (unwrap : List UInt8 → Option c.CK) (memory hw : Nat) (edb : Diana.Edb Index)
    (mes : DianaSearchMessage) (async : Bool) (o : Outcome) : Prop :=
  match toDianaSearch unwrap mes with
  | .error .exception => o = .status []
  | .error _ => False
  | .ok raw => DianaOutcome c memory hw edb ⟨Vector.replicate 32 0, raw.rcprf, raw.addCount⟩ async o

/-! ## Sophos -/

/-- The loop `for (size_t i = index + N; i < max; i += N)` of the search jobs (sophos_server.cpp L197-203, L289-293, L378-382,
L463-467) for `N = n + 1`: tokens handled, and whether it ends with an exception. -/
def strideLoop (c : Sophos.Crypto Kw Seed ST DK) (refused : ST → Bool) (n max i : Nat) (st : ST) : List ST × Bool :=
  if i < max then
    if refused st then ([], true)
    else
      let st' := c.eval^[n + 1] st
      let r := strideLoop c refused n max (i + (n + 1)) st'
      (st' :: r.1, r.2)
  else ([], false)
termination_by max - i

/-- The jobs of the search threads (sophos_server.cpp L182-204, L275-294, L365-383, L449-468): the token is evaluated first
unless the index is 0, even if there is nothing to do. `none`: the loop never ends. -/
def job (c : Sophos.Crypto Kw Seed ST DK) (refused : ST → Bool) (st : ST) (index : UInt8) (max : Nat) (N : UInt8) :
    Option (List ST × Bool) :=
  if index ≠ 0 ∧ refused st = true then some ([], true)
  else
    let local_st := if index ≠ 0 then c.eval^[index.toNat] st else st
    let first := if index.toNat < max then [local_st] else []
    if N = 0 then
      if index.toNat + N.toNat < max then (if refused local_st then some (first, true) else none) else some (first, false)
    else
      let r := strideLoop c refused (N.toNat - 1) max (index.toNat + N.toNat) local_st
      some (first ++ r.1, r.2)

/-- The threads of `search_parallel` (L208-214) -/
def parallelJobs (c : Sophos.Crypto Kw Seed ST DK) (refused : ST → Bool) (hw : Nat) (r : Sophos.SearchReq ST DK) :
    Option (List (List ST × Bool)) :=
  (List.range (Nat.max hw 2)).mapM
    (fun t => job c refused r.token (UInt8.ofNat t) r.addCount.toNat (UInt8.ofNat (Nat.max hw 2)))

/-- The threads of `search_parallel_callback` (L390-392) and `search_parallel_light_callback` (L475-477) -/
def countedJobs (c : Sophos.Crypto Kw Seed ST DK) (refused : ST → Bool) (threads : UInt8) (r : Sophos.SearchReq ST DK) :
    Option (List (List ST × Bool)) :=
  (List.range threads.toNat).mapM (fun t => job c refused r.token (UInt8.ofNat t) r.addCount.toNat threads)

/-- The loop of `search_callback` (L105-126): lookup, callback, evaluation. The last evaluation is not needed, but it is done. -/
def searchLoop (c : Sophos.Crypto Kw Seed ST DK) (refused : ST → Bool) (edb : Sophos.Edb) (k : DK) : Nat → ST → List Index × Bool
  | 0, _ => ([], false)
  | n + 1, st =>
    let found := (Sophos.access c edb k st).toList
    if refused st then (found, true)
    else
      let r := searchLoop c refused edb k n (c.eval st)
      (found ++ r.1, r.2)

/-- `SophosImpl::search` (sophos_server_runner.cpp L150-246) for a request; the flag tells if the search is asynchronous. -/
inductive SophosOutcome (c : Sophos.Crypto Kw Seed ST DK) (refused : ST → Bool) (hw : Nat) (edb : Sophos.Edb)
    (r : Sophos.SearchReq ST DK) : Bool → Outcome → Prop
  /-- L179-190: the results are written when all threads have returned. -/
  | parallel (js : List (List ST × Bool)) (s : ThreadPool.Sys ST Index) (hj : parallelJobs c refused hw r = some js)
      (hn : ∀ j ∈ js, j.2 = false) (hs : ThreadPool.SeqReachable (Sophos.access c edb r.derivationKey) 2 (js.map Prod.fst) s)
      (hr : s.pool.joiner = .returned) : SophosOutcome c refused hw edb r false (.replies s.pool.emitted)
  | parallelTerminated (js : List (List ST × Bool)) (hj : parallelJobs c refused hw r = some js) (ht : ∃ j ∈ js, j.2 = true) :
      SophosOutcome c refused hw edb r false (.terminated [])
  /-- L229-232 -/
  | callback (js : List (List ST × Bool)) (s : ThreadPool.Pipe ST Index Index) (hc : 40 ≤ r.addCount.toNat)
      (hj : countedJobs c refused (UInt8.ofNat hw) r = some js) (hn : ∀ j ∈ js, j.2 = false)
      (hs : ThreadPool.PipeReachable (Sophos.access c edb r.derivationKey) some 8 1 (js.map Prod.fst) s)
      (hr : s.B.joiner = .returned) : SophosOutcome c refused hw edb r true (.replies s.B.emitted)
  | callbackTerminated (js : List (List ST × Bool)) (s : ThreadPool.Pipe ST Index Index) (t : Nat) (l : List ST)
      (hc : 40 ≤ r.addCount.toNat) (hj : countedJobs c refused (UInt8.ofNat hw) r = some js) (ht : js[t]? = some (l, true))
      (hs : ThreadPool.PipeReachable (Sophos.access c edb r.derivationKey) some 8 1 (js.map Prod.fst) s)
      (hr : s.producers[t]? = some []) : SophosOutcome c refused hw edb r true (.terminated s.B.emitted)
  /-- L233-235 -/
  | light (js : List (List ST × Bool)) (s : ThreadPool.Threads ST Index) (hc : 2 ≤ r.addCount.toNat) (hc' : r.addCount.toNat < 40)
      (hj : countedJobs c refused (UInt8.ofNat hw) r = some js) (hn : ∀ j ∈ js, j.2 = false)
      (hs : ThreadPool.ThreadsReachable (Sophos.access c edb r.derivationKey) (js.map Prod.fst) s) (hr : s.Done) :
      SophosOutcome c refused hw edb r true (.replies s.emitted)
  | lightTerminated (js : List (List ST × Bool)) (s : ThreadPool.Threads ST Index) (t : Nat) (l : List ST)
      (hc : 2 ≤ r.addCount.toNat) (hc' : r.addCount.toNat < 40) (hj : countedJobs c refused (UInt8.ofNat hw) r = some js)
      (ht : js[t]? = some (l, true))
      (hs : ThreadPool.ThreadsReachable (Sophos.access c edb r.derivationKey) (js.map Prod.fst) s)
      (hr : s.todo[t]? = some []) : SophosOutcome c refused hw edb r true (.terminated s.emitted)
  /-- L237: in the thread of the handler -/
  | few (hc : r.addCount.toNat < 2) (h : (searchLoop c refused edb r.derivationKey r.addCount.toNat r.token).2 = false) :
      SophosOutcome c refused hw edb r true (.replies (searchLoop c refused edb r.derivationKey r.addCount.toNat r.token).1)
  | fewThrows (hc : r.addCount.toNat < 2) (h : (searchLoop c refused edb r.derivationKey r.addCount.toNat r.token).2 = true) :
      SophosOutcome c refused hw edb r true (.status (searchLoop c refused edb r.derivationKey r.addCount.toNat r.token).1)

/-! ## Specification -/

namespace Spec

/-- The document stored at a position of a key of Diana -/
def dianaAt (c : Diana.Crypto Kw Index) (edb : Diana.Edb Index) (ck : c.CK) (i : Nat) : Option Index :=
  (c.ceval ck i).bind fun leaf => (edb (c.token leaf)).map fun v => c.xor v (c.mask leaf)

/-- The document stored at a position of a chain of tokens of Sophos -/
def sophosAt (c : Sophos.Crypto Kw Seed ST DK) (edb : Sophos.Edb) (k : DK) (st : ST) (i : Nat) : Option Index :=
  (edb (c.prf k (c.eval^[i] st) false)).map fun v => Sophos.mask v (c.prf k (c.eval^[i] st) true)

/-- The positions, counted from the token that was sent, of the tokens with which a search of Sophos calls the library. Each of `N` threads
goes from a position to the one `N` further as long as there is a counted one, and all threads but the first come to their first position
from the token that was sent. An asynchronous search for fewer than two results has no threads and evaluates each counted token. -/
def sophosEvaluates (hw : Nat) (async : Bool) (count p : Nat) : Prop :=
  if async then (if 2 ≤ count then p + hw % 256 < count ∨ p = 0 ∧ 2 ≤ hw % 256 else p < count)
  else p + Nat.max hw 2 < count ∨ p = 0

/-- The key can be evaluated at the first `n` positions. -/
def covers (c : Diana.Crypto Kw Index) (ck : c.CK) (n : Nat) : Prop := ∀ i < n, c.ceval ck i ≠ none

/-- The positions that a search of Diana is to look at: those counted, but all positions of the key in an asynchronous search for one
result -/
def dianaPositions (c : Diana.Crypto Kw Index) (r : Diana.SearchReq c) (async : Bool) : Nat :=
  if async ∧ r.addCount.toNat = 1 then c.maxLeaf r.rcprf + 1 else r.addCount.toNat

/-- The threads are not counted as zero. -/
def dianaThreads (hw : Nat) (async : Bool) : Prop := async = true → hw % 256 ≠ 0

/-- The replies that were sent -/
def sent : Outcome → List Index
  | .replies l => l
  | .status l => l
  | .terminated l => l
  | .arithmetic => []

end Spec

end Verif.Runner.Foreign
