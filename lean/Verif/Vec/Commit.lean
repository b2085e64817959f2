import Verif.Vec.Model

/-!
# `commit` of the on-disk vector, step by step

`/repo/lib/include/sse/schemes/abstractio/awonvm_vector.hpp` L210-308: `commit` waits for the writes of the scheduler, makes a new
scheduler, replaces the old one by it, which destroys the old one, and sets a flag. None of this is protected by a lock.
Schedulers are numbered in the order of their construction.

Simplifications: a read or an assignment of `m_io_scheduler` or `m_is_committed` is one step (in C++ two such accesses by different threads
are a data race if one of them is an assignment); `write` and `pwrite` are one step and do not fail (see C34); a write of a scheduler and its
callback are one step (see C37 and C38 for what they are); no allocation fails; `ALIGNMENT` is a multiple of the page size, so that of the tests of
the arguments (linux_aio_scheduler.cpp L94-109) only that of the size of an element can fail.
-/

namespace Verif.Vec.Commit

variable {sz : Nat}

/-- A scheduler: `pending` are the writes that were submitted and are not done. -/
structure Sched (sz : Nat) where
  /-- not destroyed -/
  alive : Bool
  /-- `m_stop_flag` of the Linux scheduler -/
  stopped : Bool
  pending : List (Nat × Val sz)
deriving DecidableEq

/-- What is called -/
inductive Job (sz : Nat) where
  | push (x : Val sz)
  | asyncPush (x : Val sz)
  | commit
deriving DecidableEq

/-- How far a call is -/
inductive Pc where
  | begun
  /-- the tests have succeeded -/
  | checked
  /-- a position has been obtained -/
  | taken (pos : Nat)
  /-- `submit_pwrite` is called on this scheduler. -/
  | submitting (pos k : Nat)
  | returned (pos : Nat)
  | threw
  /-- `commit`: in `wait_completions` of this scheduler -/
  | waiting (k : Nat)
  /-- `commit`: before `m_io_scheduler->duplicate()` -/
  | duplicating
  /-- `commit`: before `m_io_scheduler.reset(new_sched)` -/
  | replacing (new : Nat)
  /-- `commit`: in the destructor of this scheduler -/
  | destroying (k : Nat)
  /-- `commit`: before the assignment of the flag -/
  | flagging
  | done
deriving DecidableEq

/-- A call -/
structure Call (sz : Nat) where
  job : Job sz
  pc : Pc
deriving DecidableEq

/-- The vector, all schedulers and all calls, in the order in which they began -/
structure State (sz : Nat) where
  /-- the schedulers are those for Linux, and not thread pools. -/
  linux : Bool
  file : List UInt8
  offset : Nat
  size : Nat
  committed : Bool
  scheds : List (Sched sz)
  /-- `m_io_scheduler` -/
  ptr : Option Nat
  calls : List (Call sz)
  /-- a destroyed scheduler was used. -/
  fault : Bool

/-- A new vector on an empty file (awonvm_vector.hpp L103-171), with or without a scheduler -/
def State.init (sz : Nat) (linux sched : Bool) : State sz :=
  ⟨linux, [], 0, 0, false, if sched then [⟨true, false, []⟩] else [], if sched then some 0 else none, [], false⟩

/-- The vector, to read from it -/
def State.vec (s : State sz) : Vec sz := ⟨s.file, s.offset, s.size, s.committed, false, s.ptr.isSome, []⟩

/-- A member function of scheduler `k` is called. -/
def State.use (s : State sz) (k : Nat) (pc : Pc) (f : Sched sz → State sz × Pc) : State sz × Pc :=
  match s.scheds[k]? with
  | none => ({ s with fault := true }, pc)
  | some d => if d.alive then f d else ({ s with fault := true }, pc)

/-- The next step of a call: the state without the calls, and the new point of the call -/
def next (s : State sz) (j : Job sz) (pc : Pc) : State sz × Pc :=
  match j, pc with
  -- `push_back`, L212-239
  | .push _, .begun => if s.committed then (s, .threw) else (s, .checked)
  | .push _, .checked => ({ s with size := s.size + 1 }, .taken s.size)
  | .push x, .taken p => ({ s with file := writeBytes s.file s.offset x.toList, offset := s.offset + sz }, .returned p)
  -- `async_push_back`, L245-263
  | .asyncPush _, .begun => if s.ptr.isSome then (s, .checked) else (s, .threw)
  -- L274
  | .asyncPush _, .checked => ({ s with size := s.size + 1 }, .taken s.size)
  -- L277
  | .asyncPush _, .taken p =>
    match s.ptr with
    | none => ({ s with fault := true }, .taken p)
    | some k => (s, .submitting p k)
  -- thread_pool_aio_scheduler.cpp L75-98; linux_aio_scheduler.cpp L94-109 and L252-262; awonvm_vector.hpp L279-288
  | .asyncPush x, .submitting p k =>
    s.use k (.submitting p k) fun d =>
      if s.linux ∧ (d.stopped ∨ sz % 512 ≠ 0) then (s, .threw)
      else ({ s with scheds := s.scheds.set k { d with pending := d.pending ++ [(p, x)] } }, .returned p)
  -- `commit`, L294-296 and L303
  | .commit, .begun =>
    if s.committed then (s, .flagging)
    else match s.ptr with
      | none => (s, .flagging)
      | some k => (s, .waiting k)
  -- thread_pool_aio_scheduler.cpp L33-40; linux_aio_scheduler.cpp L111-118
  | .commit, .waiting k =>
    s.use k (.waiting k) fun d =>
      ({ s with scheds := s.scheds.set k { d with stopped := true } }, if d.pending = [] then .duplicating else .waiting k)
  -- L297
  | .commit, .duplicating =>
    match s.ptr with
    | none => ({ s with fault := true }, .duplicating)
    | some k => s.use k .duplicating fun _ => ({ s with scheds := s.scheds ++ [⟨true, false, []⟩] }, .replacing s.scheds.length)
  -- L298: `reset` assigns the pointer and then deletes the old scheduler.
  | .commit, .replacing n =>
    match s.ptr with
    | none => ({ s with ptr := some n }, .flagging)
    | some k => ({ s with ptr := some n }, .destroying k)
  -- thread_pool_aio_scheduler.cpp L28-31; linux_aio_scheduler.cpp L41-45
  | .commit, .destroying k =>
    s.use k (.destroying k) fun d =>
      if d.pending = [] then ({ s with scheds := s.scheds.set k { d with alive := false, stopped := true } }, .flagging)
      else ({ s with scheds := s.scheds.set k { d with stopped := true } }, .destroying k)
  -- L307
  | .commit, .flagging => ({ s with committed := true }, .done)
  | _, pc => (s, pc)

/-- What can happen -/
inductive Act (sz : Nat) where
  | call (j : Job sz)
  | advance (n : Nat)
  /-- scheduler `k` does its pending write number `i`. -/
  | complete (k i : Nat)
deriving DecidableEq

/-- One step; nothing happens after a fault. -/
def State.step (s : State sz) (a : Act sz) : State sz :=
  if s.fault then s
  else match a with
    | .call j => { s with calls := s.calls ++ [⟨j, .begun⟩] }
    | .advance n =>
      match s.calls[n]? with
      | none => s
      | some c => { (next s c.job c.pc).1 with calls := s.calls.set n ⟨c.job, (next s c.job c.pc).2⟩ }
    | .complete k i =>
      match s.scheds[k]? with
      | none => s
      | some d =>
        match d.pending[i]? with
        | none => s
        | some r => { s with file := writeReq s.file r, scheds := s.scheds.set k { d with pending := d.pending.eraseIdx i } }

/-- A run -/
def State.run (s : State sz) (acts : List (Act sz)) : State sz := acts.foldl State.step s

namespace Spec

/-- The call has ended. -/
def ended (c : Call sz) : Bool :=
  match c.pc with
  | .returned _ | .threw | .done => true
  | _ => false

/-- All calls have ended. -/
def Over (s : State sz) : Prop := ∀ c ∈ s.calls, ended c = true

/-- No `commit` is in progress. -/
def NoneCommitting (s : State sz) : Prop := ∀ c ∈ s.calls, c.job = .commit → ended c = true

/-- The calls that begin -/
def jobs (acts : List (Act sz)) : List (Job sz) :=
  acts.filterMap fun a => match a with | .call j => some j | _ => none

/-- No call overlaps with a call of `commit`: each `commit` begins when all calls have ended, and no call begins before it has ended. -/
def Careful (s : State sz) (acts : List (Act sz)) : Prop :=
  ∀ before j after, acts = before ++ .call j :: after →
    NoneCommitting (s.run before) ∧ (j = .commit → Over (s.run before))

/-- Only `async_push_back` is called. -/
def OnlyAsync (acts : List (Act sz)) : Prop := ∀ j ∈ jobs acts, ∃ x, j = .asyncPush x

/-- The writes that are submitted and not done -/
def pending (s : State sz) : List (Nat × Val sz) := s.scheds.flatMap Sched.pending

end Spec

end Verif.Vec.Commit
