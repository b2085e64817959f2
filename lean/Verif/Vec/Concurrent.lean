import Verif.Vec.Model

/-!
# Concurrent use of the on-disk vector while it is filled

`/repo/lib/include/sse/schemes/abstractio/awonvm_vector.hpp` L194-308.  The size is an atomic counter
(L93), and positions are given out by `fetch_add` (L221, L274); but `push_back` then calls `write`, which uses the
offset of the file, and not `pwrite`, which is commented out (L222-227).

Simplifications: `write` is atomic with respect to the offset of the descriptor, as it is on Linux for regular
files; it does not fail (see `C34_failed_write`); `commit` is one step.
-/

namespace Verif.Vec.Conc

variable {sz : Nat}

/-- What is called -/
inductive Job (sz : Nat) where
  | push (x : Val sz)
  | asyncPush (x : Val sz)
  | reserve (n : Nat)
deriving DecidableEq

/-- How far a call is -/
inductive Pc where
  | begun
  /-- the checks have succeeded -/
  | checked
  /-- a position has been obtained -/
  | taken (pos : Nat)
  | returned (pos : Nat)
  /-- the end of `reserve` -/
  | done
  | threw
deriving DecidableEq

/-- A call -/
structure Call (sz : Nat) where
  job : Job sz
  pc : Pc
deriving DecidableEq

/-- The vector and the calls, in the order in which they began -/
structure State (sz : Nat) where
  vec : Vec sz
  calls : List (Call sz)

/-- A new vector -/
def State.init (sz : Nat) (sched direct : Bool) : State sz := ⟨Vec.open sz [] sched direct, []⟩

/-- The next step of a call: the vector and the new point of the call -/
def next (v : Vec sz) : Job sz → Pc → Vec sz × Pc
  -- L212-219
  | .push _, .begun => if v.committed then (v, .threw) else (v, .checked)
  -- L221
  | .push _, .checked => ({ v with size := v.size + 1 }, .taken v.size)
  -- L227-239
  | .push x, .taken p =>
    ({ v with file := writeBytes v.file v.offset x.toList, offset := v.offset + sz }, .returned p)
  -- L245-263
  | .asyncPush _, .begun => if v.sched then (v, .checked) else (v, .threw)
  -- L274
  | .asyncPush _, .checked => ({ v with size := v.size + 1 }, .taken v.size)
  -- L277-288
  | .asyncPush x, .taken p => ({ v with pending := v.pending ++ [(p, x)] }, .returned p)
  -- L197
  | .reserve n, .begun => if v.committed = false ∧ n > v.size then (v, .checked) else (v, .done)
  -- L198
  | .reserve n, .checked => ({ v with file := resize v.file (n * sz) }, .done)
  | _, pc => (v, pc)

/-- What can happen -/
inductive Act (sz : Nat) where
  | call (j : Job sz)
  | advance (n : Nat)
  /-- the scheduler does a write (`Vec.complete`) -/
  | complete (k : Nat)
  | commit

/-- One step -/
def State.step (s : State sz) : Act sz → State sz
  | .call j => { s with calls := s.calls ++ [⟨j, .begun⟩] }
  | .advance n =>
    match s.calls[n]? with
    | none => s
    | some c => ⟨(next s.vec c.job c.pc).1, s.calls.set n ⟨c.job, (next s.vec c.job c.pc).2⟩⟩
  | .complete k => { s with vec := s.vec.complete k }
  | .commit => { s with vec := s.vec.commit }

/-- A run -/
def State.run (s : State sz) (acts : List (Act sz)) : State sz := acts.foldl State.step s

end Verif.Vec.Conc
