import Verif.ThreadPool.Model
import Verif.Common.ListLemmas

/-! # Invariants of the thread pool -/

namespace Verif.ThreadPool

variable {α β : Type} {f : α → Option β}

/-- Tasks being executed. -/
def Worker.task : Worker α β → List α
  | .running a _ => [a]
  | _ => []

/-- Effects still to be performed by running tasks. -/
def Worker.out : Worker α β → List β
  | .running _ o => o.toList
  | _ => []

/-- A worker which will look at the queue again by itself. -/
def Worker.active : Worker α β → Prop
  | .checking => True
  | .running _ _ => True
  | _ => False

/-- Invariant of every reachable pool state. -/
structure Inv (f : α → Option β) (p : Pool α β) : Prop where
  tasks : p.accepted.Perm (p.finished ++ p.workers.flatMap Worker.task ++ p.queue)
  effects : (p.emitted ++ p.workers.flatMap Worker.out).Perm
    ((p.finished ++ p.workers.flatMap Worker.task).filterMap f)
  exited : Worker.exited ∈ p.workers → p.stop = true ∧ p.queue = []
  stopped : p.stop = true ↔ p.joiner ≠ .idle
  joining : p.joiner = .joining ∨ p.joiner = .returned → Worker.sleeping ∉ p.workers
  returned : p.joiner = .returned → ∀ w ∈ p.workers, w = .exited
  awake : p.queue ≠ [] → p.workers ≠ [] →
    0 < p.pendingNotify ∨ ∃ w ∈ p.workers, w.active

theorem inv_new (f : α → Option β) (n : Nat) : Inv f (Pool.new α β n) := by
  have h1 : (List.replicate n (Worker.checking : Worker α β)).flatMap Worker.task = [] := by
    simp [List.flatMap_eq_nil_iff, Worker.task]
  have h2 : (List.replicate n (Worker.checking : Worker α β)).flatMap Worker.out = [] := by
    simp [List.flatMap_eq_nil_iff, Worker.out]
  constructor <;> simp [Pool.new, h1, h2]

theorem wake_task (l : List (Worker α β)) :
    (l.map wake).flatMap Worker.task = l.flatMap Worker.task := by
  induction l with
  | nil => rfl
  | cons w l ih => cases w <;> simp_all [wake, Worker.task]

theorem wake_out (l : List (Worker α β)) :
    (l.map wake).flatMap Worker.out = l.flatMap Worker.out := by
  induction l with
  | nil => rfl
  | cons w l ih => cases w <;> simp_all [wake, Worker.out]

theorem inv_step {p p' : Pool α β} {act : Act α β} (hinv : Inv f p) (h : Step f p act p') :
    Inv f p' := by
  classical
  cases h with
  | enqueue a hs =>
    refine ⟨?_, hinv.effects, ?_, hinv.stopped, hinv.joining, hinv.returned, ?_⟩
    · show (p.accepted ++ [a]).Perm (p.finished ++ p.workers.flatMap Worker.task ++ (p.queue ++ [a]))
      rw [← List.append_assoc]
      exact hinv.tasks.append_right [a]
    · intro he
      have := (hinv.exited he).1
      simp [hs] at this
    · intro _ _; exact Or.inl (Nat.succ_pos _)
  | reject a hs => exact hinv
  | notifyWake i hp h =>
    obtain ⟨pre, post, h1, h2⟩ := Verif.List.set_split h Worker.checking
    have ht := hinv.tasks; have he := hinv.effects
    have hx := hinv.exited; have hr := hinv.returned; have hj := hinv.joining
    rw [h1] at ht he hx hr hj
    refine ⟨?_, ?_, ?_, hinv.stopped, ?_, ?_, ?_⟩ <;> simp only [h2]
    · simpa [Worker.task] using ht
    · simpa [Worker.out, Worker.task] using he
    · intro hm; apply hx; simp at hm ⊢; exact hm
    · intro hjj; have := hj hjj; simp at this
    · intro hrr; have := hr hrr _ (List.mem_append_right pre List.mem_cons_self); simp at this
    · intro _ _; exact Or.inr ⟨.checking, by simp, trivial⟩
  | notifyNone hp h =>
    refine ⟨hinv.tasks, hinv.effects, hinv.exited, hinv.stopped, hinv.joining, hinv.returned, ?_⟩
    intro hq hw
    right
    obtain ⟨w, hw⟩ := List.exists_mem_of_ne_nil _ hw
    refine ⟨w, hw, ?_⟩
    cases w with
    | checking => trivial
    | running a o => trivial
    | sleeping =>
      obtain ⟨i, hi⟩ := List.getElem?_of_mem hw
      exact absurd hi (h i)
    | exited => exact absurd (hinv.exited hw).2 hq
  | spurious i h =>
    obtain ⟨pre, post, h1, h2⟩ := Verif.List.set_split h Worker.checking
    have ht := hinv.tasks; have he := hinv.effects
    have hx := hinv.exited; have hr := hinv.returned; have hj := hinv.joining
    rw [h1] at ht he hx hr hj
    refine ⟨?_, ?_, ?_, hinv.stopped, ?_, ?_, ?_⟩ <;> simp only [h2]
    · simpa [Worker.task] using ht
    · simpa [Worker.out, Worker.task] using he
    · intro hm; apply hx; simp at hm ⊢; exact hm
    · intro hjj; have := hj hjj; simp at this
    · intro hrr; have := hr hrr _ (List.mem_append_right pre List.mem_cons_self); simp at this
    · intro _ _; exact Or.inr ⟨.checking, by simp, trivial⟩
  | pop i a q h hq =>
    obtain ⟨pre, post, h1, h2⟩ := Verif.List.set_split h (Worker.running a (f a))
    have ht := hinv.tasks; have he := hinv.effects
    have hx := hinv.exited; have hr := hinv.returned; have hj := hinv.joining
    rw [h1] at ht he hx hr hj
    rw [hq] at ht hx
    refine ⟨?_, ?_, ?_, hinv.stopped, ?_, ?_, ?_⟩ <;> simp only [h2]
    · apply Verif.List.perm_of_count
      intro x
      have := List.perm_iff_count.mp ht x
      simp [Worker.task, List.count_cons] at this ⊢
      omega
    · apply Verif.List.perm_of_count
      intro x
      have := List.perm_iff_count.mp he x
      simp [Worker.task, Worker.out, List.filterMap_append, List.filterMap_cons] at this ⊢
      cases hfa : f a <;> simp [List.count_cons] at this ⊢ <;> omega
    · intro hm
      have := (hx (by simp at hm ⊢; exact hm)).2
      simp at this
    · intro hjj hm; exact hj hjj (by simp at hm ⊢; exact hm)
    · intro hrr; have := hr hrr _ (List.mem_append_right pre List.mem_cons_self); simp at this
    · intro _ _; exact Or.inr ⟨.running a (f a), by simp, trivial⟩
  | exit i h hq hs =>
    obtain ⟨pre, post, h1, h2⟩ := Verif.List.set_split h (Worker.exited)
    have ht := hinv.tasks; have he := hinv.effects
    have hr := hinv.returned; have hj := hinv.joining
    rw [h1] at ht he hr hj
    refine ⟨?_, ?_, ?_, hinv.stopped, ?_, ?_, ?_⟩ <;> simp only [h2]
    · simpa [Worker.task] using ht
    · simpa [Worker.out, Worker.task] using he
    · intro _; exact ⟨hs, hq⟩
    · intro hjj hm; exact hj hjj (by simp at hm ⊢; exact hm)
    · intro hrr; have := hr hrr _ (List.mem_append_right pre List.mem_cons_self); simp at this
    · intro hne; exact absurd hq hne
  | sleep i h hq hs =>
    obtain ⟨pre, post, h1, h2⟩ := Verif.List.set_split h (Worker.sleeping)
    have ht := hinv.tasks; have he := hinv.effects
    have hx := hinv.exited; have hr := hinv.returned
    rw [h1] at ht he hx hr
    refine ⟨?_, ?_, ?_, hinv.stopped, ?_, ?_, ?_⟩ <;> simp only [h2]
    · simpa [Worker.task] using ht
    · simpa [Worker.out, Worker.task] using he
    · intro hm; apply hx; simp at hm ⊢; exact hm
    · intro hjj
      have : p.stop = true := hinv.stopped.mpr (by rcases hjj with h | h <;> simp [h])
      simp [hs] at this
    · intro hrr; have := hr hrr _ (List.mem_append_right pre List.mem_cons_self); simp at this
    · intro hne; exact absurd hq hne
  | emit i a b h =>
    obtain ⟨pre, post, h1, h2⟩ := Verif.List.set_split h (Worker.running a none)
    have ht := hinv.tasks; have he := hinv.effects
    have hx := hinv.exited; have hr := hinv.returned; have hj := hinv.joining
    rw [h1] at ht he hx hr hj
    refine ⟨?_, ?_, ?_, hinv.stopped, ?_, ?_, ?_⟩ <;> simp only [h2]
    · simpa [Worker.task] using ht
    · apply Verif.List.perm_of_count
      intro x
      have := List.perm_iff_count.mp he x
      simp [Worker.task, Worker.out, List.count_cons] at this ⊢
      omega
    · intro hm; apply hx; simp at hm ⊢; exact hm
    · intro hjj hm; exact hj hjj (by simp at hm ⊢; exact hm)
    · intro hrr; have := hr hrr _ (List.mem_append_right pre List.mem_cons_self); simp at this
    · intro _ _; exact Or.inr ⟨.running a none, by simp, trivial⟩
  | finish i a h =>
    obtain ⟨pre, post, h1, h2⟩ := Verif.List.set_split h (Worker.checking)
    have ht := hinv.tasks; have he := hinv.effects
    have hx := hinv.exited; have hr := hinv.returned; have hj := hinv.joining
    rw [h1] at ht he hx hr hj
    refine ⟨?_, ?_, ?_, hinv.stopped, ?_, ?_, ?_⟩ <;> simp only [h2]
    · apply Verif.List.perm_of_count
      intro x
      have := List.perm_iff_count.mp ht x
      simp [Worker.task, List.count_cons] at this ⊢
      omega
    · apply Verif.List.perm_of_count
      intro x
      have := List.perm_iff_count.mp he x
      simp [Worker.task, Worker.out, List.filterMap_append, List.filterMap_cons] at this ⊢
      cases hfa : f a <;> simp [hfa, List.count_cons] at this ⊢ <;> omega
    · intro hm; apply hx; simp at hm ⊢; exact hm
    · intro hjj hm; exact hj hjj (by simp at hm ⊢; exact hm)
    · intro hrr; have := hr hrr _ (List.mem_append_right pre List.mem_cons_self); simp at this
    · intro _ _; exact Or.inr ⟨.checking, by simp, trivial⟩
  | join h =>
    refine ⟨hinv.tasks, hinv.effects, ?_, by simp, by simp, by simp, hinv.awake⟩
    intro hm; exact ⟨rfl, (hinv.exited hm).2⟩
  | notifyAll h =>
    refine ⟨?_, ?_, ?_, ?_, ?_, by simp, ?_⟩
    · simpa only [wake_task] using hinv.tasks
    · simpa only [wake_task, wake_out] using hinv.effects
    · intro hm
      apply hinv.exited
      obtain ⟨w, hw, hww⟩ := List.mem_map.mp hm
      cases w <;> simp_all [wake]
    · simp [hinv.stopped, h]
    · intro _ hm
      obtain ⟨w, hw, hww⟩ := List.mem_map.mp hm
      cases w <;> simp_all [wake]
    · intro hq hw
      rcases hinv.awake hq (by simpa using hw) with h0 | ⟨w, hm, ha⟩
      · exact Or.inl h0
      · refine Or.inr ⟨wake w, List.mem_map_of_mem hm, ?_⟩
        cases w <;> simp_all [wake, Worker.active]
  | ret h hw =>
    refine ⟨hinv.tasks, hinv.effects, hinv.exited, ?_, ?_, ?_, hinv.awake⟩
    · simp [hinv.stopped, h]
    · intro _; exact hinv.joining (Or.inl h)
    · intro _; exact hw

theorem workers_length {p p' : Pool α β} {act : Act α β} (h : Step f p act p') :
    p'.workers.length = p.workers.length := by
  cases h <;> simp

/-- When `join` has returned, with at least one worker, everything accepted is finished and all the
effects are performed. -/
theorem returned_all {p : Pool α β} (hinv : Inv f p) (hw : p.workers ≠ [])
    (hr : p.joiner = .returned) :
    p.finished.Perm p.accepted ∧ p.emitted.Perm (p.accepted.filterMap f) := by
  have hall := hinv.returned hr
  have hq : p.queue = [] := by
    obtain ⟨w, hm⟩ := List.exists_mem_of_ne_nil _ hw
    have := hall w hm
    subst this
    exact (hinv.exited hm).2
  have h1 : p.workers.flatMap Worker.task = [] := by
    rw [List.flatMap_eq_nil_iff]; intro w hw; rw [hall w hw]; rfl
  have h2 : p.workers.flatMap Worker.out = [] := by
    rw [List.flatMap_eq_nil_iff]; intro w hw; rw [hall w hw]; rfl
  have ht := hinv.tasks; have he := hinv.effects
  simp only [hq, h1, h2, List.append_nil] at ht he
  exact ⟨ht.symm, he.trans (ht.symm.filterMap f)⟩

/-! ### Termination -/

/-- Weight of a worker; `e` is the cost of an effect. -/
def Worker.weight (e : Nat) : Worker α β → Nat
  | .checking => 1
  | .sleeping => 0
  | .running _ none => 2
  | .running _ (some _) => 2 + e
  | .exited => 0

/-- Weight of the remaining steps of the joiner. -/
def Joiner.weight (n : Nat) : Joiner → Nat
  | .idle => n + 3
  | .stopped => n + 2
  | .joining => 1
  | .returned => 0

/-- Bound on the number of steps of a pool (spurious wake-ups excluded) when nothing is enqueued. -/
def Pool.weight (e : Nat) (p : Pool α β) : Nat :=
  (2 + e) * p.queue.length + (p.workers.map (Worker.weight e)).sum + 2 * p.pendingNotify +
    p.joiner.weight p.workers.length

theorem wake_weight (e : Nat) (l : List (Worker α β)) :
    ((l.map wake).map (Worker.weight e)).sum ≤ (l.map (Worker.weight e)).sum + l.length := by
  induction l with
  | nil => simp
  | cons w l ih =>
    cases w <;> simp only [List.map_cons, List.sum_cons, wake, Worker.weight, List.length_cons] <;>
      omega

theorem weight_step {p p' : Pool α β} {act : Act α β} (e : Nat) (h : Step f p act p') :
    match act with
    | .enqueue _ => p'.weight e = p.weight e + (4 + e)
    | .reject _ => p' = p
    | .emit _ => p'.weight e + e = p.weight e
    | .join => p'.weight e < p.weight e
    | .internal => p'.weight e < p.weight e
    | .spurious => True := by
  cases h with
  | enqueue a hs =>
    simp only [Pool.weight, List.length_append, List.length_singleton]
    rw [Nat.mul_add]; omega
  | reject a hs => rfl
  | notifyWake i hp h =>
    obtain ⟨pre, post, h1, h2⟩ := Verif.List.set_split h Worker.checking
    simp only [Pool.weight, h2]
    rw [h1]
    simp [Worker.weight]; omega
  | notifyNone hp h => simp only [Pool.weight]; omega
  | spurious i h => trivial
  | pop i a q h hq =>
    obtain ⟨pre, post, h1, h2⟩ := Verif.List.set_split h (Worker.running a (f a))
    simp only [Pool.weight, h2, hq, List.length_cons]
    rw [h1]
    cases f a <;> simp [Worker.weight, Nat.mul_add] <;> omega
  | exit i h hq hs =>
    obtain ⟨pre, post, h1, h2⟩ := Verif.List.set_split h (Worker.exited)
    simp only [Pool.weight, h2]
    rw [h1]
    simp [Worker.weight]
  | sleep i h hq hs =>
    obtain ⟨pre, post, h1, h2⟩ := Verif.List.set_split h (Worker.sleeping)
    simp only [Pool.weight, h2]
    rw [h1]
    simp [Worker.weight]
  | emit i a b h =>
    obtain ⟨pre, post, h1, h2⟩ := Verif.List.set_split h (Worker.running a none)
    simp only [Pool.weight, h2]
    rw [h1]
    simp [Worker.weight]; omega
  | finish i a h =>
    obtain ⟨pre, post, h1, h2⟩ := Verif.List.set_split h (Worker.checking)
    simp only [Pool.weight, h2]
    rw [h1]
    simp [Worker.weight]
  | join h => simp only [Pool.weight, h, Joiner.weight]; omega
  | notifyAll h =>
    have := wake_weight e p.workers
    simp only [Pool.weight, h, Joiner.weight]; omega
  | ret h hw => simp only [Pool.weight, h, Joiner.weight]; omega

/-- Progress: after `join` has been called and before it returns, an internal step or an effect is
possible. -/
theorem progress_join {p : Pool α β} (hinv : Inv f p) (hj : p.joiner ≠ .idle)
    (hr : p.joiner ≠ .returned) :
    ∃ p', Step f p .internal p' ∨ ∃ b, Step f p (.emit b) p' := by
  have hstop := hinv.stopped.mpr hj
  cases hjj : p.joiner with
  | idle => exact absurd hjj hj
  | returned => exact absurd hjj hr
  | stopped => exact ⟨_, Or.inl (.notifyAll p hjj)⟩
  | joining =>
    by_cases hall : ∀ w ∈ p.workers, w = .exited
    · exact ⟨_, Or.inl (.ret p hjj hall)⟩
    · simp only [not_forall] at hall
      obtain ⟨w, hw, hne⟩ := hall
      obtain ⟨i, hi⟩ := List.getElem?_of_mem hw
      cases w with
      | exited => exact absurd rfl hne
      | sleeping => exact absurd hw (hinv.joining (Or.inl hjj))
      | checking =>
        cases hq : p.queue with
        | nil => exact ⟨_, Or.inl (.exit p i hi hq hstop)⟩
        | cons a q => exact ⟨_, Or.inl (.pop p i a q hi hq)⟩
      | running a o =>
        cases o with
        | none => exact ⟨_, Or.inl (.finish p i a hi)⟩
        | some b => exact ⟨_, Or.inr ⟨b, .emit p i a b hi⟩⟩

/-- No lost wake-up: as long as a task is queued or running (or a notification is pending), the
pool itself can make a step, without any action of the joiner or of enqueuers. -/
theorem progress_pool {p : Pool α β} (hinv : Inv f p) (hw : p.workers ≠ [])
    (hbusy : p.queue ≠ [] ∨ p.workers.flatMap Worker.task ≠ []) :
    ∃ p', Step f p .internal p' ∨ ∃ b, Step f p (.emit b) p' := by
  have act : ∀ w ∈ p.workers, w.active → (p.queue ≠ [] ∨ ∃ a o, w = .running a o) →
      ∃ p', Step f p .internal p' ∨ ∃ b, Step f p (.emit b) p' := by
    intro w hm ha hcase
    obtain ⟨i, hi⟩ := List.getElem?_of_mem hm
    cases w with
    | exited => exact ha.elim
    | sleeping => exact ha.elim
    | checking =>
      rcases hcase with hq | ⟨a, o, h⟩
      · cases hqq : p.queue with
        | nil => exact absurd hqq hq
        | cons a q => exact ⟨_, Or.inl (.pop p i a q hi hqq)⟩
      · cases h
    | running a o =>
      cases o with
      | none => exact ⟨_, Or.inl (.finish p i a hi)⟩
      | some b => exact ⟨_, Or.inr ⟨b, .emit p i a b hi⟩⟩
  rcases hbusy with hq | hrun
  · rcases hinv.awake hq hw with hn | ⟨w, hm, ha⟩
    · by_cases hs : ∃ i : Nat, p.workers[i]? = some .sleeping
      · obtain ⟨i, hi⟩ := hs
        exact ⟨_, Or.inl (.notifyWake p i hn hi)⟩
      · exact ⟨_, Or.inl (.notifyNone p hn (fun i hi => hs ⟨i, hi⟩))⟩
    · exact act w hm ha (Or.inl hq)
  · obtain ⟨x, hx⟩ := List.exists_mem_of_ne_nil _ hrun
    obtain ⟨w, hm, hxw⟩ := List.mem_flatMap.mp hx
    cases w with
    | running a o => exact act _ hm trivial (Or.inr ⟨a, o, rfl⟩)
    | checking => simp [Worker.task] at hxw
    | sleeping => simp [Worker.task] at hxw
    | exited => simp [Worker.task] at hxw

end Verif.ThreadPool
