import Verif.Vec.Buffers

/-!
# What is expected of the memory of the asynchronous accesses (C55)

The specification only looks at the trace of what is done with the buffers.
-/

namespace Verif.Vec.Buf

/-- The event uses the memory of buffer `b`: it must be allocated and not be released. -/
def Event.uses (b : Nat) : Event → Bool
  | .io b' => b' == b
  | .callback b' _ given => given && b' == b
  | .free b' => b' == b
  | .delete b' => b' == b
  | _ => false

/-- The event releases buffer `b`. -/
def Event.releases (b : Nat) : Event → Bool
  | .free b' => b' == b
  | .delete b' => b' == b
  | _ => false

/-- How many times buffer `b` is released -/
def releases (t : List Event) (b : Nat) : Nat := t.countP (Event.releases b)

/-- How many times the callback of the request of buffer `b` is called -/
def callbacks (t : List Event) (b : Nat) : Nat :=
  t.countP fun e => match e with | .callback b' _ _ => b' == b | _ => false

/-- Buffer `b` is allocated. -/
def Allocated (t : List Event) (b : Nat) : Prop := ∃ k, Event.alloc b k ∈ t

/-- Memory is only used after its allocation and before its release; in particular it is released at
most once. -/
def Safe (t : List Event) : Prop :=
  ∀ p e q, t = p ++ e :: q → ∀ b, e.uses b = true → Allocated p b ∧ releases p b = 0

/-- The buffers that are never released: those of a batched read that got too few bytes, those of an
`async_push_back` that failed, and those that `async_gets` allocated before it found a wrong index or no
memory. -/
def Event.forgets (b : Nat) : Event → Bool
  | .callback b' k given => k == .gets && !given && b' == b
  | .threw k early bs => (early || k == .push) && bs.contains b
  | _ => false

/-- Buffer `b` is forgotten. -/
def Forgotten (t : List Event) (b : Nat) : Prop := ∃ e ∈ t, e.forgets b = true

/-- A failing `async_gets` submitted none of its requests. -/
def AllOrNothing (t : List Event) : Prop :=
  ∀ b early bs, Event.threw .gets early bs ∈ t → b ∈ bs → Event.submitted b ∉ t

/-- The schedule has no error of `io_submit` and `posix_memalign` returns multiples of `align`. -/
def Act.good (align : Nat) : Act → Bool
  | .get _ mem => mem.all (fun a => a % align == 0)
  | .gets rs => rs.all (fun r => r.2.all (fun a => a % align == 0))
  | .push mem => mem.all (fun a => a % align == 0)
  | .error _ => false
  | _ => true

/-- The alignment and the size of the type suit the scheduler. -/
def Cfg.fits (c : Cfg) (align : Nat) : Prop :=
  match c.page with
  | none => True
  | some p => (∃ k, p = 2 ^ k) ∧ p ∣ align ∧ 512 ∣ c.sz

end Verif.Vec.Buf
