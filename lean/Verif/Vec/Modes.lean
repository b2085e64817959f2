import Verif.Vec.Model

/-!
# Reads of the on-disk vector while its access mode changes

`/repo/lib/include/sse/schemes/abstractio/awonvm_vector.hpp` L310-416: `set_use_direct_access` waits for the requests of the scheduler, closes
the file and opens it again, and replaces the scheduler. None of this is protected by a lock. `Oceanus::async_get`
(`/repo/lib/include/sse/schemes/oceanus/oceanus.hpp` L227-235) calls it before each lookup, so that the first one changes the mode.
Schedulers are numbered in the order of their construction, files by their descriptors.

Simplifications: the vector is committed and has a scheduler (C34 has the others); an access of `m_fd`, `m_io_scheduler` or `m_use_direct_io` is
one step (in C++ two such accesses by different threads are a data race if one of them is an assignment); opening the file and allocations do
not fail; a read of a scheduler and its callback are one step (see C37 and C38 for what they are); buffers are aligned, so that of the tests of the
arguments (linux_aio_scheduler.cpp L94-109) only that of the size of an element can fail. `async_gets` (L418-480) submits several reads as
`async_get` does one.
-/

namespace Verif.Vec.Modes

variable {sz : Nat}

/-- An open file: that of the vector, or another file of the process with its content -/
inductive Desc where
  | own
  | other (content : List UInt8)
deriving DecidableEq

/-- A scheduler: `pending` are the reads that were submitted and are not done: the number of the call, the descriptor and the index. -/
structure Sched where
  /-- not destroyed -/
  alive : Bool
  /-- `m_stop_flag` of the Linux scheduler -/
  stopped : Bool
  pending : List (Nat × Nat × Nat)
deriving DecidableEq

/-- What is called -/
inductive Job where
  | get (i : Nat)
  | asyncGet (i : Nat)
  /-- `set_use_direct_access` -/
  | direct (flag : Bool)
deriving DecidableEq

/-- How far a call is -/
inductive Pc (sz : Nat) where
  | begun
  /-- `get`: `pread` is called on this descriptor. -/
  | reading (fd : Nat)
  | value (v : Val sz)
  | threw
  /-- `async_get`: `m_io_scheduler` has been read. -/
  | calling (k : Nat)
  /-- `async_get`: `submit_pread` is called on this scheduler with this descriptor. -/
  | submitting (k fd : Nat)
  | submitted
  /-- `set_use_direct_access`: in `wait_completions` of this scheduler -/
  | waiting (k : Nat)
  /-- before `close(m_fd)` -/
  | closing
  /-- before `m_fd = open_fd(...)` -/
  | opening
  /-- before `m_io_scheduler->duplicate()` -/
  | duplicating
  /-- before `m_io_scheduler.reset(new_sched)` -/
  | replacing (new : Nat)
  /-- in the destructor of this scheduler -/
  | destroying (k : Nat)
  /-- before the assignment of `m_use_direct_io` -/
  | flagging
  | done
deriving DecidableEq

/-- A call -/
structure Call (sz : Nat) where
  job : Job
  pc : Pc sz
deriving DecidableEq

/-- The vector, the open files of the process, all schedulers and all calls, in the order in which they began -/
structure State (sz : Nat) where
  /-- the schedulers are those for Linux, and not thread pools. -/
  linux : Bool
  /-- the content of the file of the vector -/
  table : List UInt8
  /-- the open files of the process, by descriptor -/
  fds : List (Option Desc)
  /-- `m_fd` -/
  fd : Nat
  /-- `m_use_direct_io` -/
  direct : Bool
  scheds : List Sched
  /-- `m_io_scheduler` -/
  ptr : Nat
  calls : List (Call sz)
  /-- what the callbacks of the asynchronous reads received: number of the call, and the value, or the null pointer -/
  answers : List (Nat × Option (Val sz))
  /-- a destroyed scheduler was used. -/
  fault : Bool

/-- A committed vector that was opened with a scheduler (awonvm_vector.hpp L103-171); `files` are the other files of the process. -/
def State.init (sz : Nat) (linux direct : Bool) (table : List UInt8) (files : List (List UInt8)) : State sz :=
  ⟨linux, table, files.map (fun c => some (.other c)) ++ [some .own], files.length, direct, [⟨true, false, []⟩], 0, [], [], false⟩

/-- `m_size` (awonvm_vector.hpp L132-136) -/
def State.size (s : State sz) : Nat := s.table.length / sz

/-- `pread` of `sz` bytes of a file at `i * sz`; `none` if there are fewer -/
def readAt (sz : Nat) (content : List UInt8) (i : Nat) : Option (Val sz) :=
  if h : ((content.drop (i * sz)).take sz).length = sz then some ⟨((content.drop (i * sz)).take sz).toArray, by simpa using h⟩ else none

/-- `pread` on a descriptor; `none` for an error or an incomplete read -/
def State.pread (s : State sz) (fd i : Nat) : Option (Val sz) :=
  match s.fds[fd]? with
  | some (some .own) => readAt sz s.table i
  | some (some (.other c)) => readAt sz c i
  | _ => none

/-- The lowest number that is not an open file, as POSIX prescribes for `open` -/
def lowest (fds : List (Option Desc)) : Nat := fds.findIdx Option.isNone

/-- The open files after `open` -/
def openFile (fds : List (Option Desc)) (d : Desc) : List (Option Desc) :=
  if lowest fds < fds.length then fds.set (lowest fds) (some d) else fds ++ [some d]

/-- A member function of scheduler `k` is called. -/
def State.use (s : State sz) (k : Nat) (pc : Pc sz) (f : Sched → State sz × Pc sz) : State sz × Pc sz :=
  match s.scheds[k]? with
  | none => ({ s with fault := true }, pc)
  | some d => if d.alive then f d else ({ s with fault := true }, pc)

/-- The next step of call number `n`: the state without the calls, and the new point of the call -/
def next (s : State sz) (n : Nat) (j : Job) (pc : Pc sz) : State sz × Pc sz :=
  match j, pc with
  -- `get`, L336-349
  | .get i, .begun => if i > s.size then (s, .threw) else (s, .reading s.fd)
  -- L349-356
  | .get i, .reading fd =>
    match s.pread fd i with
    | some v => (s, .value v)
    | none => (s, .threw)
  -- `async_get`, L363-382 and L405
  | .asyncGet i, .begun => if i > s.size then (s, .threw) else (s, .calling s.ptr)
  -- L406
  | .asyncGet _, .calling k => (s, .submitting k s.fd)
  -- thread_pool_aio_scheduler.cpp L42-73; linux_aio_scheduler.cpp L94-109 and L252-262; awonvm_vector.hpp L408-415
  | .asyncGet i, .submitting k fd =>
    s.use k (.submitting k fd) fun d =>
      if s.linux ∧ (d.stopped ∨ sz % 512 ≠ 0) then (s, .threw)
      else ({ s with scheds := s.scheds.set k { d with pending := d.pending ++ [(n, fd, i)] } }, .submitted)
  -- `set_use_direct_access`, L313-315
  | .direct b, .begun => if b = s.direct then (s, .done) else (s, .waiting s.ptr)
  -- thread_pool_aio_scheduler.cpp L33-40; linux_aio_scheduler.cpp L111-118
  | .direct _, .waiting k =>
    s.use k (.waiting k) fun d =>
      ({ s with scheds := s.scheds.set k { d with stopped := true } }, if d.pending = [] then .closing else .waiting k)
  -- L318
  | .direct _, .closing => ({ s with fds := s.fds.set s.fd none }, .opening)
  -- L321
  | .direct _, .opening => ({ s with fds := openFile s.fds .own, fd := lowest s.fds }, .duplicating)
  -- L325
  | .direct _, .duplicating =>
    s.use s.ptr .duplicating fun _ => ({ s with scheds := s.scheds ++ [⟨true, false, []⟩] }, .replacing s.scheds.length)
  -- L326: `reset` assigns the pointer and then deletes the old scheduler.
  | .direct _, .replacing m => ({ s with ptr := m }, .destroying s.ptr)
  -- thread_pool_aio_scheduler.cpp L28-31; linux_aio_scheduler.cpp L41-45
  | .direct _, .destroying k =>
    s.use k (.destroying k) fun d =>
      if d.pending = [] then ({ s with scheds := s.scheds.set k { d with alive := false, stopped := true } }, .flagging)
      else ({ s with scheds := s.scheds.set k { d with stopped := true } }, .destroying k)
  -- L328
  | .direct b, .flagging => ({ s with direct := b }, .done)
  | _, pc => (s, pc)

/-- What can happen -/
inductive Act where
  | call (j : Job)
  | advance (n : Nat)
  /-- scheduler `k` does its pending read number `i`. -/
  | complete (k i : Nat)
  /-- another part of the process opens a file with this content. -/
  | openOther (content : List UInt8)
  /-- another part of the process closes one of its files. -/
  | closeOther (fd : Nat)
deriving DecidableEq

/-- One step; nothing happens after a fault. -/
def State.step (s : State sz) (a : Act) : State sz :=
  if s.fault then s
  else match a with
    | .call j => { s with calls := s.calls ++ [⟨j, .begun⟩] }
    | .advance n =>
      match s.calls[n]? with
      | none => s
      | some c => { (next s n c.job c.pc).1 with calls := s.calls.set n ⟨c.job, (next s n c.job c.pc).2⟩ }
    | .complete k i =>
      match s.scheds[k]? with
      | none => s
      | some d =>
        match d.pending[i]? with
        | none => s
        | some r => { s with scheds := s.scheds.set k { d with pending := d.pending.eraseIdx i }, answers := s.answers ++ [(r.1, s.pread r.2.1 r.2.2)] }
    | .openOther c => { s with fds := openFile s.fds (.other c) }
    | .closeOther n =>
      match s.fds[n]? with
      | some (some (.other _)) => { s with fds := s.fds.set n none }
      | _ => s

/-- A run -/
def State.run (s : State sz) (acts : List Act) : State sz := acts.foldl State.step s

namespace Spec

/-- The call has not ended. -/
def underWay (c : Call sz) : Bool :=
  match c.pc with
  | .value _ | .threw | .submitted | .done => false
  | _ => true

/-- No call that changes the access mode is under way. -/
def NoneChanging (s : State sz) : Prop := ∀ c ∈ s.calls, underWay c = true → ∀ b, c.job = .direct b → b = s.direct

/-- No call overlaps with one that changes the access mode: it begins when all calls have ended, and no call begins before it has ended. -/
def Careful (s : State sz) (acts : List Act) : Prop :=
  ∀ before j after, acts = before ++ .call j :: after → NoneChanging (s.run before) ∧
    ∀ b, j = .direct b → b ≠ (s.run before).direct → ∀ c ∈ (s.run before).calls, underWay c = false

/-- Element `i` of a file of elements of `sz` bytes -/
def element (sz : Nat) (table : List UInt8) (i : Nat) : List UInt8 := (table.drop (i * sz)).take sz

/-- All results are right: no destroyed object is used; a read that returned gave the element; a read throws only if there is no such
element; the callback of an asynchronous read got the element, or the null pointer if there is none (for the index after the last one); an
asynchronous read throws only for a greater index, or when Linux cannot do it because of the size of the elements. -/
structure Right (s : State sz) : Prop where
  defined : s.fault = false
  value : ∀ i v, ⟨.get i, .value v⟩ ∈ s.calls → i < s.table.length / sz ∧ v.toList = element sz s.table i
  threw : ∀ i, ⟨.get i, .threw⟩ ∈ s.calls → s.table.length / sz ≤ i
  answer : ∀ n r, (n, r) ∈ s.answers → ∃ i, s.calls[n]? = some ⟨.asyncGet i, .submitted⟩ ∧
    (r = none ↔ s.table.length / sz ≤ i) ∧ ∀ v, r = some v → v.toList = element sz s.table i
  refused : ∀ i, ⟨.asyncGet i, .threw⟩ ∈ s.calls → s.table.length / sz < i ∨ (s.linux = true ∧ sz % 512 ≠ 0)

/-- Only calls that have begun and the schedulers go on. -/
def Going (acts : List Act) : Prop := ∀ a ∈ acts, (∃ n, a = .advance n) ∨ ∃ k i, a = .complete k i

/-- The mode that was asked for last -/
def lastMode (direct : Bool) (acts : List Act) : Bool :=
  acts.foldl (fun d a => match a with | .call (.direct b) => b | _ => d) direct

end Spec

end Verif.Vec.Modes
