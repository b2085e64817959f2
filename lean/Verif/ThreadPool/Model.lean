import Mathlib.Logic.Relation

/-!
# Model of the thread pool

`/repo/lib/include/sse/schemes/utils/thread_pool.hpp` L30-169.

Interleaving semantics at the granularity of the critical sections protected by `queue_mutex`, of
the notifications of the condition variable (which are sent *after* the mutex is released), and of
the observable effects of the tasks.  A task `a` has at most one observable effect `f a` (adding a
result, calling a callback, enqueueing in another pool).  Exceptions thrown by tasks are captured
by `std::packaged_task` and are not modelled.
-/

namespace Verif.ThreadPool

/-- State of a worker thread (thread_pool.hpp L78-99). -/
inductive Worker (α β : Type) where
  /-- about to take the mutex and evaluate `stop || !tasks.empty()` (L84-87): just started, just
  notified, or just finished a task. -/
  | checking
  /-- blocked in `condition.wait` (L85). -/
  | sleeping
  /-- executing task `a` (L97) with its effect still to be performed, if any. -/
  | running (a : α) (todo : Option β)
  /-- returned from the thread function (L89). -/
  | exited

/-- Progress of the thread which calls `join` or the destructor (L133-149, L152-168). -/
inductive Joiner where
  /-- not called yet -/
  | idle
  /-- `stop = true` has been written (L139), `notify_all` (L141) not yet called -/
  | stopped
  /-- in the loop of `worker.join()` (L142-146) -/
  | joining
  /-- returned -/
  | returned
deriving DecidableEq

/-- The pool.  `accepted`, `finished` and `emitted` are ghost fields recording the history. -/
structure Pool (α β : Type) where
  queue : List α
  stop : Bool
  workers : List (Worker α β)
  /-- enqueuers that have released the mutex (L128) but not yet called `notify_one` (L129) -/
  pendingNotify : Nat
  joiner : Joiner
  /-- tasks accepted by `enqueue`, in order -/
  accepted : List α
  /-- tasks whose execution is over -/
  finished : List α
  /-- effects performed by the tasks, in order -/
  emitted : List β

/-- Visible action of a step. -/
inductive Act (α β : Type) where
  /-- `enqueue(a)` succeeds -/
  | enqueue (a : α)
  /-- `enqueue(a)` throws -/
  | reject (a : α)
  /-- a task performs its effect -/
  | emit (b : β)
  /-- `join` is called -/
  | join
  /-- internal step of the pool -/
  | internal
  /-- spurious wake-up of the condition variable -/
  | spurious

/-- `condition.notify_all()` on one worker. -/
def wake {α β : Type} : Worker α β → Worker α β
  | .sleeping => .checking
  | w => w

/-- The constructor with `n` threads (L74-101). -/
def Pool.new (α β : Type) (n : Nat) : Pool α β :=
  { queue := [], stop := false, workers := List.replicate n .checking, pendingNotify := 0,
    joiner := .idle, accepted := [], finished := [], emitted := [] }

/-- One atomic step. -/
inductive Step {α β : Type} (f : α → Option β) : Pool α β → Act α β → Pool α β → Prop
  /-- `enqueue`, critical section L119-128, pool not stopped -/
  | enqueue (p : Pool α β) (a : α) (h : p.stop = false) :
      Step f p (.enqueue a)
        { p with queue := p.queue ++ [a], accepted := p.accepted ++ [a],
                 pendingNotify := p.pendingNotify + 1 }
  /-- `enqueue` on a stopped pool throws, L123-125 -/
  | reject (p : Pool α β) (a : α) (h : p.stop = true) : Step f p (.reject a) p
  /-- `notify_one` (L129) wakes a waiting worker -/
  | notifyWake (p : Pool α β) (i : Nat) (hp : 0 < p.pendingNotify)
      (h : p.workers[i]? = some .sleeping) :
      Step f p .internal
        { p with workers := p.workers.set i .checking, pendingNotify := p.pendingNotify - 1 }
  /-- `notify_one` when nobody waits has no effect -/
  | notifyNone (p : Pool α β) (hp : 0 < p.pendingNotify)
      (h : ∀ i : Nat, p.workers[i]? ≠ some .sleeping) :
      Step f p .internal { p with pendingNotify := p.pendingNotify - 1 }
  /-- spurious wake-up -/
  | spurious (p : Pool α β) (i : Nat) (h : p.workers[i]? = some .sleeping) :
      Step f p .spurious { p with workers := p.workers.set i .checking }
  /-- the predicate holds and the queue is not empty: pop the front task (L92-94), start it -/
  | pop (p : Pool α β) (i : Nat) (a : α) (q : List α) (h : p.workers[i]? = some .checking)
      (hq : p.queue = a :: q) :
      Step f p .internal { p with queue := q, workers := p.workers.set i (.running a (f a)) }
  /-- the predicate holds because of `stop`, and the queue is empty: return (L88-90) -/
  | exit (p : Pool α β) (i : Nat) (h : p.workers[i]? = some .checking) (hq : p.queue = [])
      (hs : p.stop = true) :
      Step f p .internal { p with workers := p.workers.set i .exited }
  /-- the predicate does not hold: wait (L85) -/
  | sleep (p : Pool α β) (i : Nat) (h : p.workers[i]? = some .checking) (hq : p.queue = [])
      (hs : p.stop = false) :
      Step f p .internal { p with workers := p.workers.set i .sleeping }
  /-- the running task performs its effect -/
  | emit (p : Pool α β) (i : Nat) (a : α) (b : β) (h : p.workers[i]? = some (.running a (some b))) :
      Step f p (.emit b)
        { p with workers := p.workers.set i (.running a none), emitted := p.emitted ++ [b] }
  /-- the task returns (L97), back to the head of the loop -/
  | finish (p : Pool α β) (i : Nat) (a : α) (h : p.workers[i]? = some (.running a none)) :
      Step f p .internal
        { p with workers := p.workers.set i .checking, finished := p.finished ++ [a] }
  /-- `join`: set `stop` (L135-140) -/
  | join (p : Pool α β) (h : p.joiner = .idle) :
      Step f p .join { p with stop := true, joiner := .stopped }
  /-- `join`: `notify_all` (L141) -/
  | notifyAll (p : Pool α β) (h : p.joiner = .stopped) :
      Step f p .internal { p with workers := p.workers.map wake, joiner := .joining }
  /-- `join` returns once every worker thread has returned (L142-146) -/
  | ret (p : Pool α β) (h : p.joiner = .joining) (hw : ∀ w ∈ p.workers, w = .exited) :
      Step f p .internal { p with joiner := .returned }

/-! ## A pool used by enqueuing threads -/

/-- Several threads, each with a list of tasks to enqueue, share a pool; another thread calls
`join` at any moment. -/
structure Sys (α β : Type) where
  producers : List (List α)
  pool : Pool α β
  /-- tasks for which `enqueue` threw -/
  rejected : List α

/-- Steps of the system; the label tells spurious wake-ups (`true`) from all other steps
(`false`). -/
inductive SysStep {α β : Type} (f : α → Option β) : Bool → Sys α β → Sys α β → Prop
  | produce {s : Sys α β} (t : Nat) (a : α) (rest : List α) (p' : Pool α β)
      (h : s.producers[t]? = some (a :: rest)) (hp : Step f s.pool (.enqueue a) p') :
      SysStep f false s { s with producers := s.producers.set t rest, pool := p' }
  | reject {s : Sys α β} (t : Nat) (a : α) (rest : List α) (p' : Pool α β)
      (h : s.producers[t]? = some (a :: rest)) (hp : Step f s.pool (.reject a) p') :
      SysStep f false s
        { producers := s.producers.set t rest, pool := p', rejected := s.rejected ++ [a] }
  | join {s : Sys α β} (p' : Pool α β) (hp : Step f s.pool .join p') :
      SysStep f false s { s with pool := p' }
  | internal {s : Sys α β} (p' : Pool α β) (hp : Step f s.pool .internal p') :
      SysStep f false s { s with pool := p' }
  | emit {s : Sys α β} (b : β) (p' : Pool α β) (hp : Step f s.pool (.emit b) p') :
      SysStep f false s { s with pool := p' }
  | spurious {s : Sys α β} (p' : Pool α β) (hp : Step f s.pool .spurious p') :
      SysStep f true s { s with pool := p' }

/-- Initial state: `n` workers, producers with tasks `Ls`. -/
def Sys.init {α β : Type} (n : Nat) (Ls : List (List α)) : Sys α β :=
  { producers := Ls, pool := Pool.new α β n, rejected := [] }

/-- Reachable states. -/
def Reachable {α β : Type} (f : α → Option β) (n : Nat) (Ls : List (List α)) (s : Sys α β) : Prop :=
  Relation.ReflTransGen (fun a b => ∃ l, SysStep f l a b) (Sys.init n Ls) s

/-- `k` steps, none of which is a spurious wake-up. -/
inductive Steps {σ : Type} (R : Bool → σ → σ → Prop) : Nat → σ → σ → Prop
  | zero (s : σ) : Steps R 0 s s
  | succ (k : Nat) (s s' s'' : σ) (h : Steps R k s s') (hs : R false s' s'') :
      Steps R (k + 1) s s''

/-! ## Two pools in a pipeline

The shape of `SophosServer::search_parallel_callback` (sophos_server.cpp L312-400): producer
threads enqueue tasks in a first pool, whose tasks enqueue (at most one task each) in a second
pool; the main thread joins the producers, then the first pool, then the second. -/

/-- State of the pipeline.  `rejA`/`rejB` record calls of `enqueue` that threw. -/
structure Pipe (α β γ : Type) where
  producers : List (List α)
  A : Pool α β
  B : Pool β γ
  rejA : List α
  rejB : List β

/-- Steps of the pipeline. -/
inductive PipeStep {α β γ : Type} (f : α → Option β) (g : β → Option γ) :
    Bool → Pipe α β γ → Pipe α β γ → Prop
  /-- a producer enqueues (L375, L381) -/
  | produce {s : Pipe α β γ} (t : Nat) (a : α) (rest : List α) (A' : Pool α β)
      (h : s.producers[t]? = some (a :: rest)) (hp : Step f s.A (.enqueue a) A') :
      PipeStep f g false s { s with producers := s.producers.set t rest, A := A' }
  | produceReject {s : Pipe α β γ} (t : Nat) (a : α) (rest : List α) (A' : Pool α β)
      (h : s.producers[t]? = some (a :: rest)) (hp : Step f s.A (.reject a) A') :
      PipeStep f g false s
        { s with producers := s.producers.set t rest, A := A', rejA := s.rejA ++ [a] }
  | internalA {s : Pipe α β γ} (A' : Pool α β) (hp : Step f s.A .internal A') :
      PipeStep f g false s { s with A := A' }
  | spuriousA {s : Pipe α β γ} (A' : Pool α β) (hp : Step f s.A .spurious A') :
      PipeStep f g true s { s with A := A' }
  /-- a task of the first pool enqueues in the second (L349) -/
  | post {s : Pipe α β γ} (b : β) (A' : Pool α β) (B' : Pool β γ)
      (hA : Step f s.A (.emit b) A') (hB : Step g s.B (.enqueue b) B') :
      PipeStep f g false s { s with A := A', B := B' }
  | postReject {s : Pipe α β γ} (b : β) (A' : Pool α β) (B' : Pool β γ)
      (hA : Step f s.A (.emit b) A') (hB : Step g s.B (.reject b) B') :
      PipeStep f g false s { s with A := A', B := B', rejB := s.rejB ++ [b] }
  | internalB {s : Pipe α β γ} (B' : Pool β γ) (hp : Step g s.B .internal B') :
      PipeStep f g false s { s with B := B' }
  | spuriousB {s : Pipe α β γ} (B' : Pool β γ) (hp : Step g s.B .spurious B') :
      PipeStep f g true s { s with B := B' }
  /-- a task of the second pool performs its effect -/
  | emitB {s : Pipe α β γ} (c : γ) (B' : Pool β γ) (hp : Step g s.B (.emit c) B') :
      PipeStep f g false s { s with B := B' }
  /-- the producers have been joined (L394-396), the main thread calls `A.join()` (L398) -/
  | joinA {s : Pipe α β γ} (A' : Pool α β) (h : ∀ l ∈ s.producers, l = [])
      (hp : Step f s.A .join A') :
      PipeStep f g false s { s with A := A' }
  /-- `A.join()` has returned, the main thread calls `B.join()` (L399) -/
  | joinB {s : Pipe α β γ} (B' : Pool β γ) (h : s.A.joiner = .returned)
      (hp : Step g s.B .join B') :
      PipeStep f g false s { s with B := B' }

/-- Initial state. -/
def Pipe.init {α β γ : Type} (nA nB : Nat) (Ls : List (List α)) : Pipe α β γ :=
  { producers := Ls, A := Pool.new α β nA, B := Pool.new β γ nB, rejA := [], rejB := [] }

/-- Reachable states. -/
def PipeReachable {α β γ : Type} (f : α → Option β) (g : β → Option γ) (nA nB : Nat)
    (Ls : List (List α)) (s : Pipe α β γ) : Prop :=
  Relation.ReflTransGen (fun a b => ∃ l, PipeStep f g l a b) (Pipe.init nA nB Ls) s

/-! ## A single pool fed by producers which are joined first

The shape of `SophosServer::search_parallel` (sophos_server.cpp L129-223): producers are joined
(L216-218) before `access_pool.join()` (L220). -/

/-- Steps of a system in which `join` is called only once the producers are finished. -/
inductive SeqStep {α β : Type} (f : α → Option β) : Bool → Sys α β → Sys α β → Prop
  | step {l : Bool} {s s' : Sys α β} (h : SysStep f l s s') (hj : s'.pool.joiner = s.pool.joiner ∨
      s.pool.joiner ≠ .idle ∨ ∀ l ∈ s.producers, l = []) : SeqStep f l s s'

/-- Reachable states of that system. -/
def SeqReachable {α β : Type} (f : α → Option β) (n : Nat) (Ls : List (List α)) (s : Sys α β) :
    Prop :=
  Relation.ReflTransGen (fun a b => ∃ l, SeqStep f l a b) (Sys.init n Ls) s

/-! ## Threads without a pool

The shape of the `_light` variants (sophos_server.cpp L225-310, L402-482): every thread performs
the effects of its own tasks; the main thread joins the threads. -/

/-- Remaining tasks of each thread and effects performed so far. -/
structure Threads (α β : Type) where
  todo : List (List α)
  emitted : List β

/-- One task of one thread.  The lookup reads only immutable data, and the effect is one critical
section (or one call of the callback), so a task is one step. -/
inductive ThreadsStep {α β : Type} (f : α → Option β) : Threads α β → Threads α β → Prop
  | step {s : Threads α β} (t : Nat) (a : α) (rest : List α) (h : s.todo[t]? = some (a :: rest)) :
      ThreadsStep f s { todo := s.todo.set t rest, emitted := s.emitted ++ (f a).toList }

/-- Reachable states. -/
def ThreadsReachable {α β : Type} (f : α → Option β) (Ls : List (List α)) (s : Threads α β) :
    Prop :=
  Relation.ReflTransGen (ThreadsStep f) { todo := Ls, emitted := [] } s

/-- All the threads have returned. -/
def Threads.Done {α β : Type} (s : Threads α β) : Prop := ∀ l ∈ s.todo, l = []

end Verif.ThreadPool
