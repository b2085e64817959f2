/-!
# The asynchronous I/O scheduler on a thread pool

Model of `lib/abstractio/thread_pool_aio_scheduler.cpp` as interleavings of the submitters, of the tasks
run by the pool and of the thread that waits. Any submitted task may run at any time: this covers all
the pools. The operations on `m_running_queries` are sequentially consistent.
-/

namespace Verif.Aio.Pool

/-- Where a request is (thread_pool_aio_scheduler.cpp L42-73, L75-99) -/
inductive TPc where
  /-- `m_running_queries++` was done, `enqueue` not yet -/
  | announced
  | queued
  /-- `pread` or `pwrite` was done -/
  | io
  /-- the callback returned -/
  | called
  /-- `m_cv_lock` is taken -/
  | locked
  /-- `m_running_queries--` was done -/
  | decremented
  /-- `notify_all` was done -/
  | notified
  /-- `m_cv_lock` is released -/
  | done
deriving DecidableEq, Repr

/-- Where the thread that calls `wait_completions` is (L33-40) -/
inductive WPc where
  | idle
  /-- at the condition of the `while`, without the lock -/
  | check
  | wantLock
  /-- at the predicate, with the lock -/
  | pred
  /-- in `wait`, without the lock -/
  | sleeping
  | returned
  /-- after the destructor -/
  | destroyed
deriving DecidableEq, Repr

/-- Who holds `m_cv_lock` -/
inductive Owner where
  | free
  | task (i : Nat)
  | waiter
deriving DecidableEq, Repr

/-- The state of the scheduler -/
structure State where
  tasks : List TPc
  /-- `m_running_queries` -/
  running : Nat
  owner : Owner
  waiter : WPc
  /-- history variable: the number of requests when `wait_completions` was called -/
  base : Nat
  /-- history variable: the predicate was true, with the lock, during this call of
  `wait_completions` -/
  seen : Bool
  /-- a task used a member of the destroyed scheduler -/
  uaf : Bool
deriving DecidableEq, Repr

/-- A new scheduler -/
def init : State := ⟨[], 0, .free, .idle, 0, false, false⟩

/-- What may happen -/
inductive Act where
  /-- a call of `submit_pread` or `submit_pwrite` starts -/
  | announce
  /-- the next step of a request -/
  | task (i : Nat)
  /-- `wait_completions` is called, possibly by the destructor -/
  | wait
  /-- the next step of the waiter -/
  | waiter
  /-- the waiter wakes up spuriously -/
  | spurious
  /-- the end of the destructor, after `wait_completions` -/
  | destroy
deriving DecidableEq, Repr

/-- A step of a request: `this` is used from `called` on. -/
def State.stepTask (s : State) (i : Nat) : State :=
  match s.tasks[i]? with
  | none => s
  | some .announced => { s with tasks := s.tasks.set i .queued }
  | some .queued => { s with tasks := s.tasks.set i .io }
  | some .io => { s with tasks := s.tasks.set i .called }
  | some .called =>
    if s.waiter = .destroyed then { s with uaf := true }
    else if s.owner = .free then { s with tasks := s.tasks.set i .locked, owner := .task i } else s
  | some .locked =>
    if s.waiter = .destroyed then { s with uaf := true }
    else { s with tasks := s.tasks.set i .decremented, running := s.running - 1 }
  | some .decremented =>
    if s.waiter = .destroyed then { s with uaf := true }
    else { s with tasks := s.tasks.set i .notified,
                  waiter := if s.waiter = .sleeping then .wantLock else s.waiter }
  | some .notified =>
    if s.waiter = .destroyed then { s with uaf := true }
    else { s with tasks := s.tasks.set i .done, owner := .free }
  | some .done => s

/-- A step of `wait_completions`; taking the lock again after `wait` is the same as taking it the first
time, as the predicate is evaluated next in both cases. -/
def State.stepWaiter (s : State) : State :=
  match s.waiter with
  | .check => { s with waiter := if s.running = 0 then .returned else .wantLock }
  | .wantLock => if s.owner = .free then { s with owner := .waiter, waiter := .pred } else s
  | .pred =>
    if s.running = 0 then { s with owner := .free, waiter := .check, seen := true }
    else { s with owner := .free, waiter := .sleeping }
  | _ => s

/-- A step -/
def State.step (s : State) : Act → State
  | .announce =>
    if s.waiter = .destroyed then s
    else { s with tasks := s.tasks ++ [.announced], running := s.running + 1 }
  | .task i => s.stepTask i
  | .wait =>
    if s.waiter = .idle ∨ s.waiter = .returned then
      { s with waiter := .check, base := s.tasks.length, seen := false }
    else s
  | .waiter => s.stepWaiter
  | .spurious => if s.waiter = .sleeping then { s with waiter := .wantLock } else s
  | .destroy => if s.waiter = .returned then { s with waiter := .destroyed } else s

/-- A schedule -/
def State.run (s : State) (acts : List Act) : State := acts.foldl State.step s

end Verif.Aio.Pool
