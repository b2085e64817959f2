import Verif.ThreadPool.Systems

/-!
# C17: every task given to the thread pool runs exactly once

The statements speak about tasks handed to `enqueue`, tasks whose execution is over, effects
performed, and the moment `join` returns; all interleavings, including spurious wake-ups.
-/

namespace Verif.ThreadPool

variable {α β γ : Type}

/-- **C17**: when `join` has returned, every accepted task has been executed exactly once and has
performed its effect exactly once; the other tasks were rejected by an exception or not yet
submitted. -/
theorem C17_exactly_once (f : α → Option β) (n : Nat) (hn : 1 ≤ n) (Ls : List (List α))
    (s : Sys α β) (h : Reachable f n Ls s) (hr : s.pool.joiner = .returned) :
    s.pool.finished.Perm s.pool.accepted ∧
    s.pool.emitted.Perm (s.pool.accepted.filterMap f) ∧
    (s.pool.accepted ++ s.rejected ++ s.producers.flatten).Perm Ls.flatten := by
  have hinv := reachable_inv h
  have hne : s.pool.workers ≠ [] := by
    intro h0; have := hinv.len; simp [h0] at this; omega
  obtain ⟨h1, h2⟩ := returned_all hinv.pool hne hr
  exact ⟨h1, h2, hinv.conserve⟩

/-- **C17**: at any moment, no task has been executed more often than it was accepted. -/
theorem C17_never_twice [DecidableEq α] (f : α → Option β) (n : Nat) (Ls : List (List α))
    (s : Sys α β) (h : Reachable f n Ls s) (a : α) :
    s.pool.finished.count a ≤ s.pool.accepted.count a := by
  have := List.perm_iff_count.mp (reachable_inv h).pool.tasks a
  simp only [List.count_append] at this
  omega

/-- **C17**: nothing is rejected before `join` is called, and after `join` was called nothing is
accepted any more. -/
theorem C17_rejection_only_after_join (f : α → Option β) (n : Nat) (Ls : List (List α))
    (s s' : Sys α β) (h : Reachable f n Ls s) (l : Bool) (hst : SysStep f l s s') :
    (s.pool.joiner = .idle → s.rejected = []) ∧
    (s.pool.joiner ≠ .idle → s'.pool.accepted = s.pool.accepted) := by
  have hinv := reachable_inv h
  refine ⟨hinv.rej, ?_⟩
  intro hne
  have hstop := hinv.pool.stopped.mpr hne
  cases hst with
  | produce t a rest p' h hp => cases hp; simp_all
  | reject t a rest p' h hp => exact hp.accepted
  | join p' hp => exact hp.accepted
  | internal p' hp => exact hp.accepted
  | emit x p' hp => exact hp.accepted
  | spurious p' hp => exact hp.accepted

/-- **C17**: `join` always returns: executions are bounded (spurious wake-ups excluded), and an
execution can stop only once `join` has returned and all the enqueuers are through. -/
theorem C17_join_returns (f : α → Option β) (n : Nat) (Ls : List (List α)) :
    (∀ k (s : Sys α β), Steps (SysStep f) k (Sys.init n Ls) s →
      k ≤ (Sys.init (β := β) n Ls).weight) ∧
    (∀ s : Sys α β, Reachable f n Ls s → (∀ s', ¬ SysStep f false s s') →
      s.pool.joiner = .returned ∧ s.producers.flatten = []) := by
  constructor
  · intro k s h
    have := steps_bounded (μ := Sys.weight) (fun s s' => sys_weight_step) h
    omega
  · intro s h hstuck
    exact sys_stuck (reachable_inv h) hstuck

/-- **C17**: no lost wake-up.  Even if `join` is never called, as long as an accepted task is not
finished the pool itself can make a step. -/
theorem C17_no_lost_wakeup (f : α → Option β) (n : Nat) (hn : 1 ≤ n) (Ls : List (List α))
    (s : Sys α β) (h : Reachable f n Ls s)
    (hun : s.pool.finished.length < s.pool.accepted.length) :
    ∃ p', Step f s.pool .internal p' ∨ ∃ b, Step f s.pool (.emit b) p' := by
  have hinv := reachable_inv h
  have hne : s.pool.workers ≠ [] := by
    intro h0; have := hinv.len; simp [h0] at this; omega
  apply progress_pool hinv.pool hne
  have hl := hinv.pool.tasks.length_eq
  simp only [List.length_append] at hl
  by_cases hq : s.pool.queue = []
  · right
    intro h0
    simp [hq, h0] at hl
    omega
  · exact Or.inl hq

/-- **C17** for tasks that enqueue into another pool (producers, first pool, second pool, joined in
that order): no call of `enqueue` is rejected, and when the main thread is through every effect has
been performed exactly once. -/
theorem C17_pipeline (f : α → Option β) (g : β → Option γ) (nA nB : Nat) (hA : 1 ≤ nA)
    (hB : 1 ≤ nB) (Ls : List (List α)) (s : Pipe α β γ) (h : PipeReachable f g nA nB Ls s) :
    s.rejA = [] ∧ s.rejB = [] ∧
    (s.B.joiner = .returned → s.B.emitted.Perm ((Ls.flatten.filterMap f).filterMap g)) := by
  have hinv := pipeReachable_inv h
  exact ⟨hinv.rejA, hinv.rejB, fun hr => pipe_returned hinv hA hB hr⟩

/-- **C17** for the pipeline: it always terminates. -/
theorem C17_pipeline_terminates (f : α → Option β) (g : β → Option γ) (nA nB : Nat)
    (Ls : List (List α)) :
    (∀ k (s : Pipe α β γ), Steps (PipeStep f g) k (Pipe.init nA nB Ls) s →
      k ≤ (Pipe.init (β := β) (γ := γ) nA nB Ls).weight) ∧
    (∀ s : Pipe α β γ, PipeReachable f g nA nB Ls s → (∀ s', ¬ PipeStep f g false s s') →
      s.A.joiner = .returned ∧ s.B.joiner = .returned ∧ s.producers.flatten = []) := by
  constructor
  · intro k s h
    have := steps_bounded (μ := Pipe.weight) (fun s s' => pipe_weight_step) h
    omega
  · intro s h hstuck
    exact pipe_stuck (pipeReachable_inv h) hstuck

/-- The hypothesis of at least one worker is needed: with no worker (which `ThreadPool(0)` allows)
`join` returns although the
accepted task was never executed. -/
theorem pool_without_worker_drops_tasks :
    ∃ s : Sys Nat Nat, Reachable some 0 [[7]] s ∧ s.pool.joiner = .returned ∧
      s.pool.accepted = [7] ∧ s.pool.finished = [] := by
  let s0 : Sys Nat Nat := Sys.init 0 [[7]]
  have t1 : SysStep some false s0 _ := SysStep.produce 0 7 [] _ rfl (.enqueue s0.pool 7 rfl)
  have hreach : Reachable some 0 [[7]]
      ({ producers := [[]], rejected := [],
         pool := { s0.pool with queue := [7], accepted := [7], pendingNotify := 1, stop := true,
                                workers := [], joiner := .returned } } : Sys Nat Nat) := by
    refine Relation.ReflTransGen.head ⟨_, t1⟩ ?_
    refine Relation.ReflTransGen.head ⟨_, SysStep.join _ (.join _ rfl)⟩ ?_
    refine Relation.ReflTransGen.head ⟨_, SysStep.internal _ (.notifyAll _ rfl)⟩ ?_
    exact Relation.ReflTransGen.single ⟨_, SysStep.internal _ (.ret _ rfl (by simp [s0, Sys.init, Pool.new]))⟩
  exact ⟨_, hreach, rfl, rfl, rfl⟩

/-- Non-vacuity: an execution with one worker and two enqueuers in which `join` returns after one
task, the task of the second enqueuer being rejected. -/
example : ∃ s : Sys Nat Nat, Reachable (fun a => some (a + 1)) 1 [[7], [8]] s ∧
    s.pool.joiner = .returned ∧ s.pool.accepted = [7] ∧ s.pool.emitted = [8] ∧
    s.rejected = [8] := by
  have hreach : Reachable (fun a => some (a + 1)) 1 [[7], [8]]
      ({ producers := [[], []], rejected := [8],
         pool := { queue := [], stop := true, workers := [.exited], pendingNotify := 0,
                   joiner := .returned, accepted := [7], finished := [7], emitted := [8] } } :
        Sys Nat Nat) := by
    refine .head ⟨_, .internal _ (.sleep _ 0 rfl rfl rfl)⟩ ?_
    refine .head ⟨_, .produce 0 7 [] _ rfl (.enqueue _ 7 rfl)⟩ ?_
    refine .head ⟨_, .internal _ (.notifyWake _ 0 (by decide) rfl)⟩ ?_
    refine .head ⟨_, .internal _ (.pop _ 0 7 [] rfl rfl)⟩ ?_
    refine .head ⟨_, .join _ (.join _ rfl)⟩ ?_
    refine .head ⟨_, .reject 1 8 [] _ rfl (.reject _ 8 rfl)⟩ ?_
    refine .head ⟨_, .emit 8 _ (.emit _ 0 7 8 rfl)⟩ ?_
    refine .head ⟨_, .internal _ (.notifyAll _ rfl)⟩ ?_
    refine .head ⟨_, .internal _ (.finish _ 0 7 rfl)⟩ ?_
    refine .head ⟨_, .internal _ (.exit _ 0 rfl rfl rfl)⟩ ?_
    exact .single ⟨_, .internal _ (.ret _ rfl (by intro w hw; simp [wake, Sys.init, Pool.new] at hw; exact hw))⟩
  exact ⟨_, hreach, rfl, rfl, rfl, rfl⟩

/-- Non-vacuity of the pipeline theorem: complete executions exist for any producers. -/
example : ∃ s, PipeReachable (fun a : Nat => some (a, a)) (fun b => some b.1) 2 1 [[1, 2], [3]] s ∧
    s.B.joiner = .returned ∧ s.B.emitted.Perm [1, 2, 3] := by
  obtain ⟨s, h, hst⟩ := exists_stuck (R := PipeStep (fun a : Nat => some (a, a))
    (fun b => some b.1)) (μ := Pipe.weight) (fun s s' => pipe_weight_step)
    (Pipe.init 2 1 [[1, 2], [3]])
  have hr := (C17_pipeline_terminates _ _ 2 1 [[1, 2], [3]]).2 s h hst
  exact ⟨s, h, hr.2.1, (C17_pipeline _ _ 2 1 (by decide) (by decide) _ s h).2.2 hr.2.1⟩

end Verif.ThreadPool
