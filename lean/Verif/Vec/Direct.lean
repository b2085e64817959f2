import Verif.Vec.Model

/-!
# The on-disk vector with direct access

`/repo/lib/include/sse/schemes/abstractio/awonvm_vector.hpp`, `/repo/lib/utils/utils.cpp` L160-190 (`open_fd` with `O_DIRECT`). On a
descriptor with direct access, Linux demands that the address of the memory, the length and the offset are multiples of the block size of the
device; other accesses fail with `EINVAL` and do nothing. `Vec/Model` has no such demand: it is the vector with buffered access.

Simplifications: a file system that does not make the demand has blocks of one byte; accesses that meet it do not fail; a
submitted write that will fail is dropped when it is submitted (nothing sees the difference: the callback ignores the result, awonvm_vector.hpp
L264-271).
-/

namespace Verif.Vec.Direct

variable {sz : Nat}

/-- What does not change -/
structure Env where
  /-- the block size of the device -/
  block : Nat
  /-- `ALIGNMENT` -/
  align : Nat
  /-- the page size of the scheduler for Linux (linux_aio_scheduler.cpp L94-109); `none` for the thread pool -/
  page : Option Nat

/-- The kernel does an access of `len` bytes at `off` with this memory. -/
def Env.passes (e : Env) (direct : Bool) (addr len off : Nat) : Bool :=
  !direct || (addr % e.block == 0 && len % e.block == 0 && off % e.block == 0)

/-- `check_args` (linux_aio_scheduler.cpp L94-109); the thread pool has none. -/
def Env.accepts (e : Env) (addr len off : Nat) : Bool :=
  match e.page with
  | none => true
  | some p => addr % p == 0 && len % 512 == 0 && off % 512 == 0

/-- `push_back(val)` (awonvm_vector.hpp L210-240) of a value at this address -/
def pushBack (e : Env) (v : Vec sz) (addr : Nat) (x : Val sz) : Vec sz × Except VError Nat :=
  if v.committed then (v, .error .runtimeError)
  else if v.direct && addr % e.align != 0 then (v, .error .invalidArgument)
  else if e.passes v.direct addr sz v.offset then v.pushBack x sz
  else ({ v with size := v.size + 1 }, .error .runtimeError)

/-- `async_push_back(val)` (awonvm_vector.hpp L242-289) with the copy of the value at this address -/
def asyncPushBack (e : Env) (v : Vec sz) (addr : Nat) (x : Val sz) : Vec sz × Except VError Nat :=
  if v.sched = false then (v, .error .runtimeError)
  else if !e.accepts addr sz (v.size * sz) then ({ v with size := v.size + 1 }, .error .runtimeError)
  else if e.passes v.direct addr sz (v.size * sz) then v.asyncPushBack x
  else ({ v with size := v.size + 1 }, .ok v.size)

/-- `get(index)` (awonvm_vector.hpp L333-357) with its variable at this address -/
def get (e : Env) (v : Vec sz) (addr i : Nat) : Except VError (Val sz) :=
  if i > v.size then .error .invalidArgument
  else if v.committed = false then .error .runtimeError
  else if e.passes v.direct addr sz (i * sz) then v.get i
  else .error .runtimeError

/-- `async_get(index, callback)` (awonvm_vector.hpp L359-416) with its buffer at this address -/
def asyncGet (e : Env) (v : Vec sz) (addr i : Nat) : Except VError (Option (Val sz)) :=
  if v.sched = false then .error .runtimeError
  else if v.committed = false then .error .runtimeError
  else if i > v.size then .error .invalidArgument
  else if !e.accepts addr sz (i * sz) then .error .runtimeError
  else if e.passes v.direct addr sz (i * sz) then v.asyncGet i
  else .ok none

/-- Calls, with the addresses of the memory that they use -/
inductive Op (sz : Nat) where
  | reserve (n : Nat)
  | push (addr : Nat) (x : Val sz)
  | asyncPush (addr : Nat) (x : Val sz)
  | complete (i : Nat)
  | commit
  | setDirect (flag : Bool)
  | get (addr i : Nat)
  | asyncGet (addr i : Nat)

/-- What a call gives -/
inductive Out (sz : Nat) where
  | none
  | pos (r : Except VError Nat)
  | value (r : Except VError (Val sz))
  | answer (r : Except VError (Option (Val sz)))

/-- A call; `none` is an undefined behaviour. -/
def step (e : Env) (v : Vec sz) : Op sz → Option (Vec sz × Out sz)
  | .reserve n => some (v.reserve n, .none)
  | .push a x => some ((pushBack e v a x).1, .pos (pushBack e v a x).2)
  | .asyncPush a x => some ((asyncPushBack e v a x).1, .pos (asyncPushBack e v a x).2)
  | .complete i => some (v.complete i, .none)
  | .commit => some (v.commit, .none)
  | .setDirect b => (v.setDirect b).map fun w => (w, .none)
  | .get a i => some (v, .value (get e v a i))
  | .asyncGet a i => some (v, .answer (asyncGet e v a i))

/-- Calls one after the other, with what they give -/
def run (e : Env) (v : Vec sz) : List (Op sz) → Option (Vec sz × List (Out sz))
  | [] => some (v, [])
  | o :: os => (step e v o).bind fun r => (run e r.1 os).map fun t => (t.1, r.2 :: t.2)

namespace Spec

/-- The same call of the vector with buffered access -/
def plainStep (v : Vec sz) : Op sz → Option (Vec sz × Out sz)
  | .reserve n => some (v.reserve n, .none)
  | .push _ x => some ((v.pushBack x sz).1, .pos (v.pushBack x sz).2)
  | .asyncPush _ x => some ((v.asyncPushBack x).1, .pos (v.asyncPushBack x).2)
  | .complete i => some (v.complete i, .none)
  | .commit => some (v.commit, .none)
  | .setDirect b => (v.setDirect b).map fun w => (w, .none)
  | .get _ i => some (v, .value (v.get i))
  | .asyncGet _ i => some (v, .answer (v.asyncGet i))

/-- The same calls of the vector with buffered access -/
def plainRun (v : Vec sz) : List (Op sz) → Option (Vec sz × List (Out sz))
  | [] => some (v, [])
  | o :: os => (plainStep v o).bind fun r => (plainRun r.1 os).map fun t => (t.1, r.2 :: t.2)

/-- The memory used is a multiple of the alignment: the vector does this itself, except for `push_back`, where the caller must do it. -/
def Op.aligned (align : Nat) : Op sz → Prop
  | .push a _ | .asyncPush a _ | .get a _ | .asyncGet a _ => align ∣ a
  | _ => True

end Spec

end Verif.Vec.Direct
