import Verif.Tethys.Store

/-!
# Asynchronous lookups in the store

Model of `async_get_list_helper` and `async_get_buckets` (`tethys_store.hpp` L292-374): the two read
callbacks run on any two threads and share a heap-allocated state. Each access to this state is a step,
and the steps of the two callbacks interleave (sequential consistency; in C++ the unsynchronised accesses
are moreover a data race). Thread `false` brings the first bucket of the key, thread `true` the second.
-/

namespace Verif.Tethys.Async

/-- Where a callback is (tethys_store.hpp L335-368) -/
inductive Pc where
  /-- before `fetch_add` (L337) -/
  | start
  /-- `completed == 1`, before `index_0 = index` (L340) -/
  | first
  /-- before `bucket_0 = std::move(bucket)` (L341) -/
  | firstBucket
  /-- `completed == 2`, before `index_1 = index` (L343) -/
  | second
  /-- before `bucket_1 = std::move(bucket)` (L344) -/
  | secondBucket
  /-- before the lookup in the stash and `decode_list` (L347-360) -/
  | decode
  /-- before `delete state` (L367) -/
  | delete (r : List Index)
  /-- before `callback(bucket_res)` (L368) -/
  | call (r : List Index)
  | done
deriving DecidableEq, Repr

/-- What may go wrong -/
inductive AFault where
  /-- `*(state->bucket_0)` or `*(state->bucket_1)` with a null pointer -/
  | nullDeref
  /-- access to the state after `delete state` -/
  | useAfterFree
  /-- exception of the decoder -/
  | decoder (f : Fault)
deriving DecidableEq, Repr

/-- The shared state (tethys_store.hpp L386-402), the callbacks and the calls of the user callback -/
structure AState where
  counter : Nat
  index0 : Option Nat
  index1 : Option Nat
  bucket0 : Option (List UInt8)
  bucket1 : Option (List UInt8)
  alive : Bool
  pc : Bool → Pc
  calls : List (List Index)
  fault : Option AFault

/-- What the environment fixes: the bucket indexes, the results of the two reads (`none` for the null
pointer given by `awonvm_vector` when the read fails, awonvm_vector.hpp L459-468), the decoder and the
stash entry of the key -/
structure Env where
  index : Bool → Nat
  bucket : Bool → Option (List UInt8)
  decode : List UInt8 → Nat → List UInt8 → Nat → Except Fault (List Index)
  stash : List Index

/-- The state when both reads are submitted (tethys_store.hpp L375-439) -/
def AState.init : AState :=
  ⟨0, none, none, none, none, true, fun _ => .start, [], none⟩

/-- Change of the position of a callback -/
def AState.goto (s : AState) (t : Bool) (p : Pc) : AState :=
  { s with pc := fun u => if u = t then p else s.pc u }

/-- One step of the callback `t`; nothing moves after a fault. The `uint8_t` counter receives two
increments at most. -/
def step (env : Env) (s : AState) (t : Bool) : AState :=
  if s.fault ≠ none then s
  else match s.pc t with
    | .done => s
    | .call r => { s with calls := s.calls ++ [r] }.goto t .done
    | p =>
      if s.alive = false then { s with fault := some .useAfterFree }
      else match p with
        | .start =>
          if s.counter + 1 = 1 then { s with counter := s.counter + 1 }.goto t .first
          else if s.counter + 1 = 2 then { s with counter := s.counter + 1 }.goto t .second
          else { s with counter := s.counter + 1 }.goto t .done
        | .first => { s with index0 := some (env.index t) }.goto t .firstBucket
        | .firstBucket => { s with bucket0 := env.bucket t }.goto t .done
        | .second => { s with index1 := some (env.index t) }.goto t .secondBucket
        | .secondBucket => { s with bucket1 := env.bucket t }.goto t .decode
        | .decode => match s.bucket0, s.bucket1 with
          | some b0, some b1 =>
            match env.decode b0 (s.index0.getD (2 ^ 64 - 1)) b1 (s.index1.getD (2 ^ 64 - 1)) with
            | .ok r => s.goto t (.delete (r ++ env.stash))
            | .error f => { s with fault := some (.decoder f) }
          | _, _ => { s with fault := some .nullDeref }
        | .delete r => { s with alive := false }.goto t (.call r)
        | _ => s

/-- Steps in the order of a schedule -/
def run (env : Env) (s : AState) (sched : List Bool) : AState := sched.foldl (step env) s

end Verif.Tethys.Async
