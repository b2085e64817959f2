/-!
# The Linux asynchronous I/O scheduler

Model of `lib/abstractio/linux_aio_scheduler.cpp` as interleavings of the submitters, of the kernel, of
the completion thread and of the thread that waits. The kernel context has `cap` slots; a slot is freed
when `io_getevents` returns the request. The critical sections of `m_cv_lock` are one step each:
they only contain accesses to `m_waiting_submissions`. The check of `m_stop_flag` and the increment of
`m_submitted_queries_count` are one step: as required by `scheduler.hpp` L33, no request is
submitted concurrently with `wait_completions`.
-/

namespace Verif.Aio.Linux

/-- Where a call of `submit_iocbs` is (linux_aio_scheduler.cpp L120-163) -/
inductive SPc where
  /-- before `io_submit` -/
  | trying
  /-- `io_submit` returned `-EAGAIN`, the lock is not taken yet -/
  | eagain
  /-- in `m_cv_submission.wait`; `signalled` after `notify_all` -/
  | sleeping (signalled : Bool)
  /-- all the requests are submitted -/
  | finished
  /-- `io_submit` returned another error -/
  | failed
deriving DecidableEq, Repr

/-- A call of `submit_iocbs`: the identifiers of the remaining requests -/
structure Sub where
  todo : List Nat
  pc : SPc
deriving DecidableEq, Repr

/-- Where the completion thread is (linux_aio_scheduler.cpp L56-92) -/
inductive LPc where
  /-- at the condition of the loop -/
  | head
  /-- `io_getevents` returned these requests -/
  | got (events : List Nat)
  /-- the remaining requests to notify, and `num_events` -/
  | notifying (events : List Nat) (n : Nat)
  | exited
deriving DecidableEq, Repr

/-- The state of the scheduler and of the kernel -/
structure State where
  cap : Nat
  /-- requests in the kernel -/
  kernel : List Nat
  subs : List Sub
  loop : LPc
  /-- `m_waiting_submissions` -/
  waiting : Bool
  /-- `m_stop_flag` -/
  stop : Bool
  /-- `m_submitted_queries_count` -/
  submitted : UInt64
  /-- `m_completed_queries_count` -/
  completed : UInt64
  /-- `m_failed_queries_count` -/
  failed : UInt64
  /-- history variable: the next identifier, that is the number of submitted requests -/
  next : Nat
  /-- history variable: the requests whose callback was called, in order -/
  notified : List Nat
  /-- history variable: the requests that were not submitted because of an error -/
  lost : List Nat
deriving DecidableEq, Repr

/-- A new scheduler -/
def init (cap : Nat) : State := ⟨cap, [], [], .head, false, false, 0, 0, 0, 0, [], []⟩

/-- What may happen -/
inductive Act where
  /-- a thread calls `submit_pread`, `submit_pwrite` (`n = 1`) or `submit_preads` -/
  | call (n : Nat)
  /-- call number `j` does `io_submit`; the kernel accepts `k` requests, as far as possible, and at
  least one -/
  | submit (j k : Nat)
  /-- `io_submit` of call number `j` fails -/
  | submitError (j : Nat)
  /-- call number `j` takes the lock and starts to wait -/
  | lockWait (j : Nat)
  /-- call number `j` wakes up, spuriously or not -/
  | wake (j : Nat)
  /-- `io_getevents` returns the requests of the list that are in the kernel (none: timeout), or the
  thread exits -/
  | reap (events : List Nat)
  /-- `io_getevents` returns the error `-e` -/
  | reapError (e : Nat)
  /-- the next step of the completion thread -/
  | loop
  /-- `wait_completions` sets the stop flag -/
  | stop
deriving DecidableEq, Repr

/-- The condition of the loop of the completion thread is false (linux_aio_scheduler.cpp L64-66). -/
def State.finished (s : State) : Bool :=
  s.stop && !(s.completed + s.failed < s.submitted)

/-- `m_cv_submission.notify_all()` -/
def Sub.signal (u : Sub) : Sub :=
  match u.pc with
  | .sleeping _ => { u with pc := .sleeping true }
  | _ => u

/-- A step -/
def State.step (s : State) : Act → State
  | .call n =>
    if s.stop then s
    else { s with submitted := s.submitted + UInt64.ofNat n, next := s.next + n,
                  subs := s.subs ++ [⟨List.range' s.next n, if n = 0 then .finished else .trying⟩] }
  | .submit j k =>
    match s.subs[j]? with
    | some ⟨todo, .trying⟩ =>
      if s.cap ≤ s.kernel.length then { s with subs := s.subs.set j ⟨todo, .eagain⟩ }
      else
        let r := min (max 1 k) (s.cap - s.kernel.length)
        { s with kernel := s.kernel ++ todo.take r,
                 subs := s.subs.set j ⟨todo.drop r, if todo.drop r = [] then .finished else .trying⟩ }
    | _ => s
  | .submitError j =>
    match s.subs[j]? with
    | some ⟨todo, .trying⟩ =>
      { s with failed := s.failed + UInt64.ofNat todo.length, lost := s.lost ++ todo,
               subs := s.subs.set j ⟨[], .failed⟩ }
    | _ => s
  | .lockWait j =>
    match s.subs[j]? with
    | some ⟨todo, .eagain⟩ =>
      { s with waiting := true, subs := s.subs.set j ⟨todo, .sleeping false⟩ }
    | _ => s
  | .wake j =>
    match s.subs[j]? with
    | some ⟨todo, .sleeping _⟩ =>
      { s with subs := s.subs.set j ⟨todo, if s.waiting then .sleeping false else .trying⟩ }
    | _ => s
  | .reap events =>
    if s.loop = .head then
      if s.finished then { s with loop := .exited }
      else
        let es := s.kernel.filter (fun i => events.contains i)
        { s with kernel := s.kernel.filter (fun i => !events.contains i),
                 loop := if es = [] then .head else .got es }
    else s
  | .reapError e =>
    if s.loop = .head ∧ s.finished = false then { s with completed := s.completed - UInt64.ofNat e } else s
  | .loop =>
    match s.loop with
    | .got es => { s with waiting := false, subs := s.subs.map Sub.signal, loop := .notifying es es.length }
    | .notifying (e :: es) n => { s with notified := s.notified ++ [e], loop := .notifying es n }
    | .notifying [] n => { s with completed := s.completed + UInt64.ofNat n, loop := .head }
    | _ => s
  | .stop => { s with stop := true }

/-- A schedule -/
def State.run (s : State) (acts : List Act) : State := acts.foldl State.step s

/-- `wait_completions` returned (linux_aio_scheduler.cpp L111-118). -/
def State.waited (s : State) : Prop := s.stop = true ∧ s.loop = .exited

instance (s : State) : Decidable s.waited := inferInstanceAs (Decidable (_ ∧ _))

end Verif.Aio.Linux
