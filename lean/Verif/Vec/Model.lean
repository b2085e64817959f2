import Verif.Common.Bytes
import Verif.Common.Map

/-!
# The on-disk vector

Model of `lib/include/sse/schemes/abstractio/awonvm_vector.hpp`: a file of consecutive values of `sz`
bytes, with the position of the descriptor (used by `write`), the fields of the class and the requests
given to the scheduler that are not done yet. The alignment of the memory buffers is not modelled.
-/

namespace Verif.Vec

/-- Exceptions: `std::invalid_argument` and `std::runtime_error` -/
inductive VError where
  | invalidArgument
  | runtimeError
deriving DecidableEq, Repr

/-- A value of type `T`, with `sizeof(T) = sz` -/
abbrev Val (sz : Nat) := Vector UInt8 sz

/-- The fields of `awonvm_vector` (awonvm_vector.hpp L88-98), the content of its file and the offset of
its descriptor -/
structure Vec (sz : Nat) where
  file : List UInt8
  offset : Nat
  size : Nat
  committed : Bool
  direct : Bool
  /-- `m_io_scheduler` is not null -/
  sched : Bool
  /-- submitted `pwrite` requests: position in the vector and value -/
  pending : List (Nat × Val sz)

/-- `pwrite`, or `write` at the offset: a hole is filled with zeros. -/
def writeBytes (file : List UInt8) (off : Nat) (bs : List UInt8) : List UInt8 :=
  (file ++ List.replicate (off - file.length) 0).take off ++ bs ++ file.drop (off + bs.length)

/-- `ftruncate` -/
def resize (file : List UInt8) (n : Nat) : List UInt8 :=
  file.take n ++ List.replicate (n - file.length) 0

/-- `awonvm_vector(path, scheduler, direct_io)` (awonvm_vector.hpp L103-171) on a file with this
content -/
def Vec.open (sz : Nat) (file : List UInt8) (sched direct : Bool) : Vec sz :=
  if 0 < file.length then ⟨file, 0, file.length / sz, true, direct, sched, []⟩
  else ⟨file, 0, 0, false, direct, sched, []⟩

variable {sz : Nat}

/-- `reserve(n)` (awonvm_vector.hpp L194-207), when `ftruncate` succeeds -/
def Vec.reserve (v : Vec sz) (n : Nat) : Vec sz :=
  if v.committed = false ∧ n > v.size then { v with file := resize v.file (n * sz) } else v

/-- `push_back(val)` (awonvm_vector.hpp L210-240). `w` is the number of bytes that `write` writes: `sz`
except in case of an error. -/
def Vec.pushBack (v : Vec sz) (x : Val sz) (w : Nat) : Vec sz × Except VError Nat :=
  if v.committed then (v, .error .runtimeError)
  else
    let pos := v.size
    let w := min w sz
    let v' := { v with size := v.size + 1, file := writeBytes v.file v.offset (x.toList.take w),
                       offset := v.offset + w }
    if w ≠ sz then (v', .error .runtimeError) else (v', .ok pos)

/-- `async_push_back(val)` (awonvm_vector.hpp L242-289), when the scheduler accepts the request: the
state of the vector is not checked. -/
def Vec.asyncPushBack (v : Vec sz) (x : Val sz) : Vec sz × Except VError Nat :=
  if v.sched = false then (v, .error .runtimeError)
  else ({ v with size := v.size + 1, pending := v.pending ++ [(v.size, x)] }, .ok v.size)

/-- The `pwrite` of a request (thread_pool_aio_scheduler.cpp L75-82) -/
def writeReq (file : List UInt8) (r : Nat × Val sz) : List UInt8 :=
  writeBytes file (r.1 * sz) r.2.toList

/-- A thread of the scheduler does the pending request number `i`, in any order. -/
def Vec.complete (v : Vec sz) (i : Nat) : Vec sz :=
  match v.pending[i]? with
  | none => v
  | some r => { v with file := writeReq v.file r, pending := v.pending.eraseIdx i }

/-- `wait_completions` of the scheduler: the remaining requests are done. -/
def Vec.wait (v : Vec sz) : Vec sz :=
  { v with file := v.pending.foldl writeReq v.file, pending := [] }

/-- `commit()` (awonvm_vector.hpp L292-308) -/
def Vec.commit (v : Vec sz) : Vec sz :=
  if v.committed then v
  else { (if v.sched then v.wait else v) with committed := true }

/-- `set_use_direct_access(flag)` (awonvm_vector.hpp L310-331): the file is opened again. The result is
`none` when the null scheduler is dereferenced. -/
def Vec.setDirect (v : Vec sz) (flag : Bool) : Option (Vec sz) :=
  if flag = v.direct then some v
  else if v.sched = false then none
  else some { v.wait with offset := 0, direct := flag }

/-- `get(index)` (awonvm_vector.hpp L333-357) -/
def Vec.get (v : Vec sz) (i : Nat) : Except VError (Val sz) :=
  if i > v.size then .error .invalidArgument
  else if v.committed = false then .error .runtimeError
  else
    let bs := (v.file.drop (i * sz)).take sz
    if h : bs.length = sz then .ok ⟨bs.toArray, by simpa using h⟩ else .error .runtimeError

/-- `async_get(index, callback)` (awonvm_vector.hpp L359-416): what the callback receives, `none` for
the null pointer -/
def Vec.asyncGet (v : Vec sz) (i : Nat) : Except VError (Option (Val sz)) :=
  if v.sched = false then .error .runtimeError
  else if v.committed = false then .error .runtimeError
  else if i > v.size then .error .invalidArgument
  else
    let bs := (v.file.drop (i * sz)).take sz
    if h : bs.length = sz then .ok (some ⟨bs.toArray, by simpa using h⟩) else .ok none

/-- The destructor (awonvm_vector.hpp L181-192) leaves this file. -/
def Vec.destroy (v : Vec sz) : List UInt8 :=
  if v.committed then (if v.sched then v.wait else v).file else v.commit.file

/-- The operations of a client of the vector -/
inductive Op (sz : Nat) where
  | reserve (n : Nat)
  | push (x : Val sz)
  /-- a `push_back` during which `write` writes `w` bytes only -/
  | pushFail (x : Val sz) (w : Nat)
  | asyncPush (x : Val sz)
  /-- a thread of the scheduler does a pending request -/
  | complete (i : Nat)
  | commit
  | setDirect (flag : Bool)

/-- An operation, forgetting its result; `none` is an undefined behaviour. -/
def Vec.step (v : Vec sz) : Op sz → Option (Vec sz)
  | .reserve n => some (v.reserve n)
  | .push x => some (v.pushBack x sz).1
  | .pushFail x w => some (v.pushBack x w).1
  | .asyncPush x => some (v.asyncPushBack x).1
  | .complete i => some (v.complete i)
  | .commit => some v.commit
  | .setDirect b => v.setDirect b

/-- A sequence of operations -/
def Vec.run (v : Vec sz) : List (Op sz) → Option (Vec sz)
  | [] => some v
  | op :: ops => (v.step op).bind (fun v' => v'.run ops)

/-! ## Descriptors -/

/-- A vector object: its fields, and its descriptor `m_fd` -/
structure Obj (sz : Nat) where
  vec : Vec sz
  fd : Nat

/-- The move constructor (awonvm_vector.hpp L172-179): the new object and the moved-from object. `m_size`
and `m_is_committed` have their default values in the new object, and the scheduler is null in the
old one. -/
def Obj.move (o : Obj sz) : Obj sz × Obj sz :=
  (⟨{ o.vec with size := 0, committed := false }, o.fd⟩, ⟨{ o.vec with sched := false }, 0⟩)

/-- The destructor closes `m_fd`; `opened` are the open descriptors of the process
(awonvm_vector.hpp L191). -/
def Obj.destroy (o : Obj sz) (opened : List Nat) : List Nat := opened.filter (fun d => d != o.fd)

end Verif.Vec
