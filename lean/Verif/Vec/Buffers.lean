/-!
# The memory of the asynchronous accesses of the on-disk vector

Model of the buffers that `async_get`, `async_gets` and `async_push_back`
(`lib/include/sse/schemes/abstractio/awonvm_vector.hpp`) allocate, give to a scheduler
(`lib/abstractio/linux_aio_scheduler.cpp`, `lib/abstractio/thread_pool_aio_scheduler.cpp`) and release,
as interleavings of the callers, of the kernel or of the workers, of the completion threads and of the
owners of the results. What is done with the memory is recorded in a trace.

Simplifications. The content of the buffers and of the file is not modelled (see `Verif.Vec.Model`): the
result of a read or of a write is arbitrary. A caller that finds the queue of the kernel full just
waits (see `Verif.Aio.Linux`). `enqueue` of the shared thread pool does not throw: this pool is never
stopped. The callbacks of the users do not throw.
-/

namespace Verif.Vec.Buf

/-- The functions that allocate buffers: `async_get`, `async_gets` and `async_push_back` -/
inductive Kind where
  | get
  | gets
  | push
deriving DecidableEq, Repr

/-- What happens to buffer number `b` and to its request -/
inductive Event where
  /-- `posix_memalign` -/
  | alloc (b : Nat) (k : Kind)
  /-- the scheduler accepted the request -/
  | submitted (b : Nat)
  /-- the kernel or a worker reads or writes the memory -/
  | io (b : Nat)
  /-- the callback of the user is called, with the buffer or with the null pointer -/
  | callback (b : Nat) (k : Kind) (given : Bool)
  /-- the callback of a write is called -/
  | wrote (b : Nat)
  /-- `free` -/
  | free (b : Nat)
  /-- the destructor of the `std::unique_ptr<T>` calls `delete` -/
  | delete (b : Nat)
  /-- `new LinuxAIORequest` -/
  | newReq (b : Nat)
  /-- `delete req` -/
  | delReq (b : Nat)
  /-- the call for these buffers returns -/
  | returned (k : Kind) (bs : List Nat)
  /-- the call throws, `early` before anything is submitted, after it allocated these buffers -/
  | threw (k : Kind) (early : Bool) (bs : List Nat)
deriving DecidableEq, Repr

/-- `sizeof(T)`, and the page size of the Linux scheduler; `none` for the scheduler on a thread pool -/
structure Cfg where
  sz : Nat
  page : Option Nat
deriving DecidableEq, Repr

/-- A call in progress: its buffers, the requests still to submit, the submitted ones, and whether
`io_submit` returned an error other than `-EAGAIN` -/
structure Call where
  kind : Kind
  bufs : List Nat
  todo : List Nat
  sub : List Nat
  failed : Bool
deriving DecidableEq, Repr

/-- A submitted request: its buffer, its kind, and the result of the access when it is done -/
structure Req where
  buf : Nat
  kind : Kind
  res : Option Int
deriving DecidableEq, Repr

/-- The state -/
structure State where
  /-- the number of allocated buffers -/
  next : Nat
  /-- `m_size` -/
  size : Nat
  /-- `m_is_committed` -/
  committed : Bool
  /-- `m_io_scheduler` is not null -/
  sched : Bool
  /-- `m_stop_flag` -/
  stop : Bool
  calls : List Call
  inflight : List Req
  /-- the results held by the users: buffers in a `std::unique_ptr<T>` -/
  owned : List Nat
  trace : List Event
deriving DecidableEq, Repr

/-- A vector that was just opened -/
def init (size : Nat) (committed sched : Bool) : State :=
  ⟨0, size, committed, sched, false, [], [], [], []⟩

/-- What may happen -/
inductive Act where
  /-- `async_get(i, callback)`; `mem` is the address that `posix_memalign` returns -/
  | get (i : Nat) (mem : Option Nat)
  /-- `async_gets` for these positions -/
  | gets (rs : List (Nat × Option Nat))
  | push (mem : Option Nat)
  /-- the scheduler accepts the next `n` requests of call number `j`, as far as possible, at least
  one -/
  | submit (j n : Nat)
  /-- `io_submit` of call number `j` fails -/
  | error (j : Nat)
  /-- the end of call number `j` -/
  | finish (j : Nat)
  /-- the access of submitted request number `i` is done, with result `res` -/
  | io (i : Nat) (res : Int)
  /-- the callback of submitted request number `i` is called -/
  | notify (i : Nat)
  /-- the user destroys result number `i` -/
  | drop (i : Nat)
  /-- `wait_completions` is called -/
  | wait
  /-- `commit` (`c`) or `set_use_direct_access` replaces the scheduler. -/
  | renew (c : Bool)
deriving DecidableEq, Repr

/-- `is_aligned` (utils.hpp L100-112), for `a > 0` -/
def isAligned (x a : Nat) : Bool := x &&& (a - 1) == 0

/-- `check_args` (linux_aio_scheduler.cpp L94-109 and L273-283): the request for the buffer at address
`addr` and the element `i` is accepted; the thread pool has no such test. -/
def Cfg.check (c : Cfg) (i addr : Nat) : Bool :=
  match c.page with
  | none => true
  | some p => isAligned addr p && c.sz % 512 == 0 && i * c.sz % 512 == 0

/-- The allocations of a call (awonvm_vector.hpp L376-392, L436-455): number, index and address for
each buffer, and `false` if an exception is thrown -/
def prepare (size : Nat) : Nat → List (Nat × Option Nat) → List (Nat × Nat × Nat) × Bool
  | _, [] => ([], true)
  | next, (i, mem) :: rs =>
    if i > size then ([], false)
    else
      match mem with
      | none => ([], false)
      | some a => ((next, i, a) :: (prepare size (next + 1) rs).1, (prepare size (next + 1) rs).2)

/-- The requests of a call that the scheduler will submit: none after `wait_completions` for the Linux
scheduler (linux_aio_scheduler.cpp L172-182, L201-228, L267-283) -/
def Cfg.passing (c : Cfg) (stop : Bool) (allocs : List (Nat × Nat × Nat)) : List Nat :=
  if c.page.isSome && stop then []
  else (allocs.filter (fun x => c.check x.2.1 x.2.2)).map (·.1)

/-- A call that allocated its buffers, or that throws before (awonvm_vector.hpp L242-273, L359-403,
L418-471) -/
def State.start (c : Cfg) (s : State) (k : Kind) (p : List (Nat × Nat × Nat) × Bool) : State :=
  let bufs := p.1.map (·.1)
  let allocs := bufs.map (fun b => Event.alloc b k)
  if p.2 then
    let todo := c.passing s.stop p.1
    { s with next := s.next + bufs.length, calls := s.calls ++ [⟨k, bufs, todo, [], false⟩],
             trace := s.trace ++ allocs ++ (if c.page.isSome then todo.map Event.newReq else []) }
  else { s with next := s.next + bufs.length, trace := s.trace ++ allocs ++ [.threw k true bufs] }

/-- The inner callbacks (awonvm_vector.hpp L263-271, L390-400 and L456-464); `full` if the access had
the length `sizeof(T)` -/
def inner (b : Nat) (k : Kind) (full : Bool) : List Event :=
  match k with
  | .get => if full then [.callback b .get true] else [.free b, .callback b .get false]
  | .gets => [.callback b .gets full]
  | .push => [.free b, .wrote b]

/-- A step -/
def State.step (c : Cfg) (s : State) : Act → State
  | .get i mem =>
    if s.sched = false ∨ s.committed = false then { s with trace := s.trace ++ [.threw .get true []] }
    else s.start c .get (prepare s.size s.next [(i, mem)])
  | .gets rs =>
    if s.sched = false ∨ s.committed = false then { s with trace := s.trace ++ [.threw .gets true []] }
    else s.start c .gets (prepare s.size s.next rs)
  | .push mem =>
    -- awonvm_vector.hpp L242-289: `m_size` is incremented after the allocation
    if s.sched = false then { s with trace := s.trace ++ [.threw .push true []] }
    else
      let p := prepare s.size s.next [(s.size, mem)]
      { s.start c .push p with size := if p.2 then s.size + 1 else s.size }
  | .submit j n =>
    -- linux_aio_scheduler.cpp L128-141, thread_pool_aio_scheduler.cpp L70-71 and L95-96, scheduler.hpp
    -- L95-107
    match s.calls[j]? with
    | none => s
    | some u =>
      if u.failed = true ∨ u.todo = [] then s
      else
        let now := u.todo.take (max 1 n)
        { s with calls := s.calls.set j { u with todo := u.todo.drop (max 1 n), sub := u.sub ++ now },
                 inflight := s.inflight ++ now.map (fun b => ⟨b, u.kind, none⟩),
                 trace := s.trace ++ now.map Event.submitted }
  | .error j =>
    -- linux_aio_scheduler.cpp L152-157
    match s.calls[j]?, c.page with
    | some u, some _ =>
      if u.failed = true ∨ u.todo = [] then s
      else { s with calls := s.calls.set j { u with todo := [], failed := true } }
    | _, _ => s
  | .finish j =>
    -- awonvm_vector.hpp L279-288, L405-415, L473-483
    match s.calls[j]? with
    | none => s
    | some u =>
      if u.todo ≠ [] then s
      else if u.failed = false ∧ u.sub.length = u.bufs.length then
        { s with calls := s.calls.eraseIdx j, trace := s.trace ++ [.returned u.kind u.bufs] }
      else
        let frees := if u.kind = .push then [] else u.bufs.map Event.free
        { s with calls := s.calls.eraseIdx j, trace := s.trace ++ frees ++ [.threw u.kind false u.bufs] }
  | .io i res =>
    match s.inflight[i]? with
    | some ⟨b, k, none⟩ =>
      { s with inflight := s.inflight.set i ⟨b, k, some res⟩, trace := s.trace ++ [.io b] }
    | _ => s
  | .notify i =>
    -- linux_aio_scheduler.cpp L82-87, thread_pool_aio_scheduler.cpp L60
    match s.inflight[i]? with
    | some ⟨b, k, some res⟩ =>
      let full := res == (c.sz : Int)
      { s with inflight := s.inflight.eraseIdx i,
               owned := if k ≠ .push ∧ full = true then s.owned ++ [b] else s.owned,
               trace := s.trace ++ inner b k full ++ (if c.page.isSome then [.delReq b] else []) }
    | _ => s
  | .drop i =>
    match s.owned[i]? with
    | some b => { s with owned := s.owned.eraseIdx i, trace := s.trace ++ [.delete b] }
    | none => s
  | .wait => { s with stop := true }
  | .renew cm =>
    -- awonvm_vector.hpp L292-331
    if s.calls = [] ∧ s.inflight = [] then { s with stop := false, committed := s.committed || cm } else s

/-- A schedule -/
def State.run (c : Cfg) (s : State) (acts : List Act) : State := acts.foldl (State.step c) s

/-- Nothing is in progress and no result is held. -/
def State.Quiet (s : State) : Prop := s.calls = [] ∧ s.inflight = [] ∧ s.owned = []

instance (s : State) : Decidable s.Quiet := inferInstanceAs (Decidable (_ ∧ _ ∧ _))

end Verif.Vec.Buf
