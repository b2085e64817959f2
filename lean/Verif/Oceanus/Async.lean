import Verif.Oceanus.Cuckoo

/-!
# Asynchronous lookups in the cuckoo table

Model of `CuckooHashTable::async_get` (cuckoo.hpp L376-452): the two read callbacks run on any two
threads and share a heap-allocated state. Each access to this state is a step, and the steps of the two
callbacks interleave. Thread `false` brings the cell of the first table, thread `true` the one of the
second.
-/

namespace Verif.Oceanus.Async

variable {n : Nat}

/-- Where a callback is (cuckoo.hpp L399-443) -/
inductive Pc (n : Nat) where
  /-- before the comparison of the keys (L402-404) -/
  | start
  /-- before `state->result = std::move(read_value)` (L408) -/
  | write
  /-- before `fetch_add` (L413) -/
  | add
  /-- `completed == 1`, before `data = std::move(state->result)` (L433) -/
  | take
  /-- before `delete state` (L435) -/
  | delete (d : Option (Payload n))
  /-- before `callback(...)` (L437-442) -/
  | call (d : Option (Payload n))
  | done
deriving DecidableEq, Repr

/-- What may go wrong -/
inductive AFault where
  /-- access to the state after `delete state` -/
  | useAfterFree
  /-- both callbacks assign `state->result`: nothing orders the two assignments, as each precedes the
  `fetch_add` of its callback -/
  | dataRace
deriving DecidableEq, Repr

/-- The shared state (cuckoo.hpp L384-388), the callbacks and the calls of the user callback -/
structure AState (n : Nat) where
  counter : Nat
  result : Option (Payload n)
  alive : Bool
  pc : Bool → Pc n
  calls : List (Option (Vector UInt8 n))
  fault : Option AFault

/-- The state when both reads are submitted (cuckoo.hpp L397, L446-451) -/
def AState.init : AState n := ⟨0, none, true, fun _ => .start, [], none⟩

/-- Change of the position of a callback -/
def AState.goto (s : AState n) (t : Bool) (p : Pc n) : AState n :=
  { s with pc := fun u => if u = t then p else s.pc u }

/-- One step of the callback `t`; nothing moves after a fault. `read t` is what the read gives, `none` for
the null pointer of a failed read (awonvm_vector.hpp L459-468). The `uint8_t` counter receives two
increments at most. -/
def step (key : Key) (read : Bool → Option (Payload n)) (s : AState n) (t : Bool) : AState n :=
  if s.fault ≠ none then s
  else match s.pc t with
    | .done => s
    | .call d => { s with calls := s.calls ++ [d.map valueOf] }.goto t .done
    | .start => match read t with
      | some p => if matchKey p key then s.goto t .write else s.goto t .add
      | none => s.goto t .add
    | p =>
      if s.alive = false then { s with fault := some .useAfterFree }
      else match p with
        | .write =>
          if s.result ≠ none then { s with fault := some .dataRace }
          else { s with result := read t }.goto t .add
        | .add =>
          if s.counter = 1 then { s with counter := s.counter + 1 }.goto t .take
          else { s with counter := s.counter + 1 }.goto t .done
        | .take => { s with result := none }.goto t (.delete s.result)
        | .delete d => { s with alive := false }.goto t (.call d)
        | _ => s

/-- Steps in the order of a schedule -/
def run (key : Key) (read : Bool → Option (Payload n)) (s : AState n) (sched : List Bool) : AState n :=
  sched.foldl (step key read) s

/-- The two reads of `async_get` in a table (cuckoo.hpp L391-394, L446-451) -/
def reads (t : Table n) (key : Key) : Bool → Option (Payload n)
  | false => t.table[(t.hash key).h0.toNat % t.size]?
  | true => t.table[(t.hash key).h1.toNat % t.size + t.size]?

end Verif.Oceanus.Async
