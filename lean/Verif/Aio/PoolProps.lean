import Verif.Aio.Pool

/-!
# Properties of the thread pool scheduler (C37)
-/

namespace Verif.Aio.Pool

/-- The callback of the request has returned. -/
def Finished (p : TPc) : Prop :=
  p = .called ∨ p = .locked ∨ p = .decremented ∨ p = .notified ∨ p = .done

/-- Counted in `m_running_queries` -/
def active : TPc → Bool
  | .decremented => false
  | .notified => false
  | .done => false
  | _ => true

/-- Holds the lock -/
def holds : TPc → Bool
  | .locked => true
  | .decremented => true
  | .notified => true
  | _ => false

/-- The invariant -/
structure Inv (s : State) : Prop where
  count : s.running = s.tasks.countP active
  ownT : ∀ (i : Nat) p, s.tasks[i]? = some p → holds p = true → s.owner = .task i
  ownT' : ∀ i, s.owner = .task i → ∃ p, s.tasks[i]? = some p ∧ holds p = true
  ownW : s.waiter = .pred ↔ s.owner = .waiter
  sleep : s.waiter = .sleeping → s.running ≠ 0 ∨ ∃ i : Nat, s.tasks[i]? = some .decremented
  base : s.base ≤ s.tasks.length
  ret : s.waiter = .returned ∨ s.waiter = .destroyed →
    ∀ i p, i < s.base → s.tasks[i]? = some p → active p = false
  seen : s.seen = true → ∀ i p, i < s.base → s.tasks[i]? = some p → p = .done
  nouaf : s.waiter ≠ .destroyed → s.uaf = false

theorem inv_init : Inv init where
  count := rfl
  ownT := by simp [init]
  ownT' := by simp [init]
  ownW := by simp [init]
  sleep := by simp [init]
  base := by simp [init]
  ret := by simp [init]
  seen := by simp [init]
  nouaf := by simp [init]

theorem getElem?_set_cases {l : List TPc} {i j : Nat} {a p : TPc} (h : (l.set i a)[j]? = some p) :
    (j = i ∧ p = a) ∨ (j ≠ i ∧ l[j]? = some p) := by
  rw [List.getElem?_set] at h
  split at h
  · rename_i hij
    split at h
    · exact Or.inl ⟨hij.symm, by cases h; rfl⟩
    · cases h
  · rename_i hij
    exact Or.inr ⟨fun h => hij h.symm, h⟩

theorem getElem?_set_of {l : List TPc} {i j : Nat} {p q : TPc} (a : TPc) (hi : l[i]? = some q)
    (hj : l[j]? = some p) : (l.set i a)[j]? = some (if j = i then a else p) := by
  have hil := (List.getElem?_eq_some_iff.mp hi).1
  by_cases h : j = i
  · subst h; simp [hil]
  · rw [List.getElem?_set_ne (fun hh => h hh.symm), hj, if_neg h]

theorem countP_set_eq {l : List TPc} {i : Nat} {q : TPc} (a : TPc) (hi : l[i]? = some q) :
    (l.set i a).countP active + (if active q then 1 else 0) =
      l.countP active + (if active a then 1 else 0) := by
  obtain ⟨hil, hq⟩ := List.getElem?_eq_some_iff.mp hi
  rw [List.countP_set hil, hq]
  have : active q = true → 0 < l.countP active := by
    intro h
    rw [List.countP_pos_iff]
    exact ⟨q, List.mem_of_getElem? hi, h⟩
  cases ha : active q
  · simp
  · have := this ha
    simp
    omega

/-- Changing the place of a request, without changing who holds the lock -/
theorem Inv.setQuiet {s : State} (h : Inv s) {i : Nat} {q : TPc} (a : TPc) (hi : s.tasks[i]? = some q)
    (hq : active q = true) (ha : active a = true) (hh : holds q = false) (hha : holds a = false) :
    Inv { s with tasks := s.tasks.set i a } where
  count := by
    have := countP_set_eq a hi
    have := h.count
    simp_all
  ownT := by
    intro j p hj hp
    rcases getElem?_set_cases hj with ⟨-, rfl⟩ | ⟨-, hj⟩
    · simp [hha] at hp
    · exact h.ownT j p hj hp
  ownT' := by
    intro j hj
    obtain ⟨p, hp, hhp⟩ := h.ownT' j hj
    have hji : j ≠ i := by
      rintro rfl
      rw [hi] at hp; cases hp; simp [hh] at hhp
    exact ⟨p, by rw [getElem?_set_of a hi hp, if_neg hji], hhp⟩
  ownW := h.ownW
  sleep := by
    intro hs
    rcases h.sleep hs with h1 | ⟨j, hj⟩
    · exact Or.inl h1
    · have hji : j ≠ i := by
        rintro rfl
        rw [hi] at hj; cases hj; simp [active] at hq
      exact Or.inr ⟨j, by simp only; rw [getElem?_set_of a hi hj, if_neg hji]⟩
  base := by simpa using h.base
  ret := by
    intro hr j p hj hp
    rcases getElem?_set_cases hp with ⟨rfl, rfl⟩ | ⟨-, hp⟩
    · have := h.ret hr j q hj hi
      simp [hq] at this
    · exact h.ret hr j p hj hp
  seen := by
    intro hs j p hj hp
    rcases getElem?_set_cases hp with ⟨rfl, rfl⟩ | ⟨-, hp⟩
    · have := h.seen hs j q hj hi
      subst this
      simp [active] at hq
    · exact h.seen hs j p hj hp
  nouaf := h.nouaf

theorem Inv.step {s : State} (h : Inv s) (act : Act) : Inv (s.step act) := by
  cases act with
  | announce =>
    unfold State.step
    dsimp only
    split
    · exact h
    · rename_i hd
      refine ⟨?_, ?_, ?_, h.ownW, ?_, ?_, ?_, ?_, h.nouaf⟩
      · have := h.count
        simp [this, active]
      · intro j p hj hp
        rw [List.getElem?_append] at hj
        split at hj
        · exact h.ownT j p hj hp
        · have := List.mem_of_getElem? hj
          simp at this
          subst this
          simp [holds] at hp
      · intro j hj
        obtain ⟨p, hp, hhp⟩ := h.ownT' j hj
        exact ⟨p, by simp only; rw [List.getElem?_append_left (List.getElem?_eq_some_iff.mp hp).1, hp], hhp⟩
      · intro _; left; simp
      · have := h.base
        simp; omega
      · intro hr j p hj hp
        have hb := h.base
        simp only at hj hp
        rw [List.getElem?_append_left (by omega)] at hp
        exact h.ret hr j p hj hp
      · intro hs j p hj hp
        have hb := h.base
        simp only at hj hp
        rw [List.getElem?_append_left (by omega)] at hp
        exact h.seen hs j p hj hp
  | task i =>
    simp only [State.step]
    unfold State.stepTask
    cases hi : s.tasks[i]? with
    | none => exact h
    | some q =>
      cases q with
      | announced => exact h.setQuiet .queued hi rfl rfl rfl rfl
      | queued => exact h.setQuiet .io hi rfl rfl rfl rfl
      | io => exact h.setQuiet .called hi rfl rfl rfl rfl
      | called =>
        dsimp only
        split
        · rename_i hd
          exact ⟨h.count, h.ownT, h.ownT', h.ownW, h.sleep, h.base, h.ret, h.seen,
            fun hn => absurd hd hn⟩
        · split
          · rename_i hd ho
            refine ⟨?_, ?_, ?_, ?_, ?_, ?_, ?_, ?_, h.nouaf⟩
            · have := countP_set_eq .locked hi
              have := h.count
              simp_all [active]
            · intro j p hj hp
              rcases getElem?_set_cases hj with ⟨rfl, -⟩ | ⟨-, hj⟩
              · rfl
              · have := h.ownT j p hj hp
                rw [ho] at this; cases this
            · intro j hj
              cases hj
              exact ⟨.locked, by simp only; rw [getElem?_set_of .locked hi hi, if_pos rfl], rfl⟩
            · have := h.ownW
              simp [ho] at this ⊢
              exact this
            · intro hs
              rcases h.sleep hs with h1 | ⟨j, hj⟩
              · exact Or.inl h1
              · have := h.ownT j _ hj rfl
                rw [ho] at this; cases this
            · simpa using h.base
            · intro hr j p hj hp
              rcases getElem?_set_cases hp with ⟨rfl, rfl⟩ | ⟨-, hp⟩
              · have := h.ret hr j _ hj hi
                simp [active] at this
              · exact h.ret hr j p hj hp
            · intro hs j p hj hp
              rcases getElem?_set_cases hp with ⟨rfl, rfl⟩ | ⟨-, hp⟩
              · have := h.seen hs j _ hj hi
                cases this
              · exact h.seen hs j p hj hp
          · exact h
      | locked =>
        dsimp only
        split
        · rename_i hd
          exact ⟨h.count, h.ownT, h.ownT', h.ownW, h.sleep, h.base, h.ret, h.seen,
            fun hn => absurd hd hn⟩
        · rename_i hd
          have ho := h.ownT i _ hi rfl
          refine ⟨?_, ?_, ?_, ?_, ?_, ?_, ?_, ?_, h.nouaf⟩
          · have := countP_set_eq .decremented hi
            have := h.count
            simp_all [active]
            omega
          · intro j p hj hp
            rcases getElem?_set_cases hj with ⟨rfl, -⟩ | ⟨-, hj⟩
            · exact ho
            · exact h.ownT j p hj hp
          · intro j hj
            simp only [ho] at hj
            cases hj
            exact ⟨.decremented, by simp only; rw [getElem?_set_of .decremented hi hi, if_pos rfl], rfl⟩
          · have := h.ownW
            simp [ho] at this ⊢
            exact this
          · intro hs
            exact Or.inr ⟨i, by simp only; rw [getElem?_set_of .decremented hi hi, if_pos rfl]⟩
          · simpa using h.base
          · intro hr j p hj hp
            rcases getElem?_set_cases hp with ⟨rfl, rfl⟩ | ⟨-, hp⟩
            · rfl
            · exact h.ret hr j p hj hp
          · intro hs j p hj hp
            rcases getElem?_set_cases hp with ⟨rfl, rfl⟩ | ⟨-, hp⟩
            · have := h.seen hs j _ hj hi
              cases this
            · exact h.seen hs j p hj hp
      | decremented =>
        dsimp only
        split
        · rename_i hd
          exact ⟨h.count, h.ownT, h.ownT', h.ownW, h.sleep, h.base, h.ret, h.seen,
            fun hn => absurd hd hn⟩
        · rename_i hd
          have ho := h.ownT i _ hi rfl
          refine ⟨?_, ?_, ?_, ?_, ?_, ?_, ?_, ?_, ?_⟩
          · have := countP_set_eq .notified hi
            have := h.count
            simp_all [active]
          · intro j p hj hp
            rcases getElem?_set_cases hj with ⟨rfl, -⟩ | ⟨-, hj⟩
            · exact ho
            · exact h.ownT j p hj hp
          · intro j hj
            simp only [ho] at hj
            cases hj
            exact ⟨.notified, by simp only; rw [getElem?_set_of .notified hi hi, if_pos rfl], rfl⟩
          · have := h.ownW
            simp only [ho] at this ⊢
            split
            · simp
            · exact this
          · intro hs
            simp only at hs
            split at hs
            · cases hs
            · rename_i hn; exact absurd hs hn
          · simpa using h.base
          · intro hr j p hj hp
            have hr' : s.waiter = .returned ∨ s.waiter = .destroyed := by
              simp only at hr
              split at hr
              · rcases hr with hr | hr <;> cases hr
              · exact hr
            rcases getElem?_set_cases hp with ⟨rfl, rfl⟩ | ⟨-, hp⟩
            · rfl
            · exact h.ret hr' j p hj hp
          · intro hs j p hj hp
            rcases getElem?_set_cases hp with ⟨rfl, rfl⟩ | ⟨-, hp⟩
            · have := h.seen hs j _ hj hi
              cases this
            · exact h.seen hs j p hj hp
          · intro _; exact h.nouaf hd
      | notified =>
        dsimp only
        split
        · rename_i hd
          exact ⟨h.count, h.ownT, h.ownT', h.ownW, h.sleep, h.base, h.ret, h.seen,
            fun hn => absurd hd hn⟩
        · rename_i hd
          have ho := h.ownT i _ hi rfl
          refine ⟨?_, ?_, ?_, ?_, ?_, ?_, ?_, ?_, h.nouaf⟩
          · have := countP_set_eq .done hi
            have := h.count
            simp_all [active]
          · intro j p hj hp
            rcases getElem?_set_cases hj with ⟨rfl, rfl⟩ | ⟨hji, hj⟩
            · simp [holds] at hp
            · have := h.ownT j p hj hp
              rw [ho] at this
              cases this
              exact absurd rfl hji
          · intro j hj
            cases hj
          · have := h.ownW
            simp [ho] at this ⊢
            exact this
          · intro hs
            rcases h.sleep hs with h1 | ⟨j, hj⟩
            · exact Or.inl h1
            · have := h.ownT j _ hj rfl
              rw [ho] at this
              cases this
              rw [hi] at hj; cases hj
          · simpa using h.base
          · intro hr j p hj hp
            rcases getElem?_set_cases hp with ⟨rfl, rfl⟩ | ⟨-, hp⟩
            · rfl
            · exact h.ret hr j p hj hp
          · intro hs j p hj hp
            rcases getElem?_set_cases hp with ⟨rfl, rfl⟩ | ⟨-, hp⟩
            · rfl
            · exact h.seen hs j p hj hp
      | done => exact h
  | wait =>
    unfold State.step
    dsimp only
    split
    · rename_i hw
      have hu : s.uaf = false := h.nouaf (by rcases hw with hw | hw <;> simp [hw])
      have ho := h.ownW
      exact ⟨h.count, h.ownT, h.ownT', by rcases hw with hw | hw <;> simpa [hw] using ho, by simp,
        Nat.le_refl _, by simp, by simp, fun _ => hu⟩
    · exact h
  | waiter =>
    simp only [State.step]
    unfold State.stepWaiter
    split
    · rename_i hw
      have hu := h.nouaf (by simp [hw])
      by_cases hr : s.running = 0
      · refine ⟨h.count, h.ownT, h.ownT', by simpa [hw, hr] using h.ownW, by simp [hr], h.base, ?_, h.seen, fun _ => hu⟩
        intro _ j p hj hp
        have hc := h.count
        rw [hr] at hc
        have := List.countP_eq_zero.mp hc.symm p (List.mem_of_getElem? hp)
        simpa using this
      · refine ⟨h.count, h.ownT, h.ownT', by simpa [hw, hr] using h.ownW, by simp [hr], h.base, by simp [hr], h.seen,
          fun _ => hu⟩
    · rename_i hw
      have hu := h.nouaf (by simp [hw])
      split
      · rename_i ho
        refine ⟨h.count, ?_, by simp, by simp, by simp, h.base, by simp, h.seen, fun _ => hu⟩
        intro j p hj hp
        have := h.ownT j p hj hp
        rw [ho] at this; cases this
      · exact h
    · rename_i hw
      have hu := h.nouaf (by simp [hw])
      have ho := h.ownW.mp hw
      have hno : ∀ (j : Nat) p, s.tasks[j]? = some p → holds p = true → False := by
        intro j p hj hp
        have := h.ownT j p hj hp
        rw [ho] at this; cases this
      split
      · rename_i hr
        refine ⟨h.count, fun j p hj hp => (hno j p hj hp).elim, by simp, by simp, by simp, h.base,
          by simp, ?_, fun _ => hu⟩
        intro _ j p hj hp
        have hc := h.count
        rw [hr] at hc
        have h1 := List.countP_eq_zero.mp hc.symm p (List.mem_of_getElem? hp)
        have h2 := hno j p hp
        cases p <;> simp_all [active, holds]
      · rename_i hr
        exact ⟨h.count, fun j p hj hp => (hno j p hj hp).elim, by simp, by simp,
          fun _ => Or.inl hr, h.base, by simp, h.seen, fun _ => hu⟩
    · exact h
  | spurious =>
    unfold State.step
    dsimp only
    split
    · rename_i hw
      exact ⟨h.count, h.ownT, h.ownT', by simpa [hw] using h.ownW, by simp, h.base, by simp, h.seen,
        fun _ => h.nouaf (by simp [hw])⟩
    · exact h
  | destroy =>
    unfold State.step
    dsimp only
    split
    · rename_i hw
      exact ⟨h.count, h.ownT, h.ownT', by simpa [hw] using h.ownW, by simp, h.base, fun _ => h.ret (Or.inl hw), h.seen,
        by simp⟩
    · exact h

theorem Inv.run {s : State} (h : Inv s) (acts : List Act) : Inv (s.run acts) := by
  induction acts generalizing s with
  | nil => exact h
  | cons a acts ih => exact ih (h.step a)

theorem step_base (s : State) (a : Act) (ha : a ≠ .wait) : (s.step a).base = s.base := by
  cases a with
  | announce => unfold State.step; dsimp only; split <;> rfl
  | task i =>
    simp only [State.step]
    unfold State.stepTask
    split <;> (try split) <;> (try split) <;> rfl
  | wait => exact absurd rfl ha
  | waiter =>
    simp only [State.step]
    unfold State.stepWaiter
    split <;> (try split) <;> rfl
  | spurious => unfold State.step; dsimp only; split <;> rfl
  | destroy => unfold State.step; dsimp only; split <;> rfl

theorem run_base (acts : List Act) (s : State) (ha : Act.wait ∉ acts) : (s.run acts).base = s.base := by
  induction acts generalizing s with
  | nil => rfl
  | cons a acts ih =>
    simp only [List.mem_cons, not_or] at ha
    show ((s.step a).run acts).base = _
    rw [ih _ ha.2, step_base _ _ (fun h => ha.1 h.symm)]

theorem run_append (s : State) (a b : List Act) : s.run (a ++ b) = (s.run a).run b := by
  simp [State.run]

/-! ## C37 -/

/-- A schedule for the examples: two requests, a waiter that sleeps and is woken up -/
def sample : List Act :=
  [.announce, .task 0, .announce, .task 1, .task 1, .wait, .waiter, .waiter, .waiter,
   .task 0, .task 0, .task 0, .task 0, .task 0, .task 0, .waiter, .waiter,
   .task 1, .task 1, .task 1, .task 1, .task 1, .waiter, .waiter, .waiter]

/-- **C37**, first part: when `wait_completions` returns, the callbacks of the requests submitted before
the call have returned, for all the interleavings; other requests may be submitted meanwhile. -/
theorem C37_callbacks (before during : List Act) (hw : Act.wait ∉ during)
    (hs : (init.run before).waiter = .idle ∨ (init.run before).waiter = .returned)
    (hr : (init.run (before ++ [.wait] ++ during)).waiter = .returned) (i : Nat) (p : TPc)
    (hi : i < (init.run before).tasks.length)
    (hp : (init.run (before ++ [.wait] ++ during)).tasks[i]? = some p) : Finished p := by
  have h := inv_init.run (before ++ [.wait] ++ during)
  have hb : (init.run (before ++ [.wait] ++ during)).base = (init.run before).tasks.length := by
    rw [run_append, run_base _ _ hw, run_append]
    show ((init.run before).step .wait).base = _
    unfold State.step
    dsimp only
    rw [if_pos hs]
  have := h.ret (Or.inl hr) i p (by omega) hp
  unfold Finished
  cases p <;> simp_all [active]

example : (init.run (sample.take 5)).waiter = .idle ∧ (init.run (sample.take 5)).tasks.length = 2 ∧
    (init.run sample).waiter = .returned ∧ Act.wait ∉ sample.drop 6 ∧
    sample = sample.take 5 ++ [.wait] ++ sample.drop 6 := by decide

/-- **C37**: no wake-up is lost. The waiter sleeps only while some request is not finished, -/
theorem C37_no_lost_wakeup (acts : List Act) (hs : (init.run acts).waiter = .sleeping) :
    ∃ (i : Nat) (p : TPc), (init.run acts).tasks[i]? = some p ∧ p ≠ .done := by
  have h := inv_init.run acts
  rcases h.sleep hs with h1 | ⟨i, hi⟩
  · rw [h.count] at h1
    obtain ⟨p, hp, hpa⟩ := List.countP_pos_iff.mp (Nat.pos_of_ne_zero h1)
    obtain ⟨i, hi⟩ := List.getElem?_of_mem hp
    exact ⟨i, p, hi, by rintro rfl; simp [active] at hpa⟩
  · exact ⟨i, _, hi, by simp⟩

/-- and when all the requests are finished, `wait_completions` returns after at most three of its own
steps. -/
theorem C37_returns (acts : List Act) (hd : ∀ p ∈ (init.run acts).tasks, p = .done)
    (hw : (init.run acts).waiter = .check ∨ (init.run acts).waiter = .wantLock ∨
      (init.run acts).waiter = .pred ∨ (init.run acts).waiter = .sleeping) :
    ∃ k ≤ 3, ((init.run acts).run (List.replicate k .waiter)).waiter = .returned := by
  have h := inv_init.run acts
  have hns : (init.run acts).waiter ≠ .sleeping := by
    intro hs
    obtain ⟨i, p, hi, hp⟩ := C37_no_lost_wakeup acts hs
    exact hp (hd p (List.mem_of_getElem? hi))
  generalize init.run acts = s at *
  have hr : s.running = 0 := by
    rw [h.count, List.countP_eq_zero]
    intro p hp
    rw [hd p hp]; simp [active]
  have ho : s.owner = .free ∨ s.owner = .waiter := by
    cases ho : s.owner with
    | free => exact Or.inl rfl
    | waiter => exact Or.inr rfl
    | task i =>
      obtain ⟨p, hp, hh⟩ := h.ownT' i ho
      rw [hd p (List.mem_of_getElem? hp)] at hh
      simp [holds] at hh
  rcases hw with hw | hw | hw | hw
  · exact ⟨1, by omega, by simp [State.run, State.step, State.stepWaiter, hw, hr]⟩
  · have hf : s.owner = .free := by
      rcases ho with ho | ho
      · exact ho
      · have := h.ownW.mpr ho
        rw [hw] at this; cases this
    exact ⟨3, by omega, by simp [State.run, State.step, State.stepWaiter, hw, hr, hf, List.replicate]⟩
  · exact ⟨2, by omega, by simp [State.run, State.step, State.stepWaiter, hw, hr, List.replicate]⟩
  · exact absurd hw hns

example : ∀ p ∈ (init.run (sample.take 22)).tasks, p = .done := by decide

/-- C37 is violated: `wait_completions` may see the last decrement before the task calls `notify_all`;
when the scheduler is destroyed right after it, the task uses the destroyed condition variable and
mutex (the condition of the `while` is read without the lock, thread_pool_aio_scheduler.cpp L35). -/
theorem C37_use_after_free :
    (init.run [.announce, .task 0, .task 0, .task 0, .task 0, .task 0, .wait, .waiter, .destroy,
      .task 0]).uaf = true := by decide

/-- The requests are finished, and the scheduler is not used any more. -/
theorem run_done (acts : List Act) (s : State) (hw : s.waiter = .destroyed)
    (hd : ∀ p ∈ s.tasks, p = .done) (hu : s.uaf = false) : (s.run acts).uaf = false := by
  induction acts generalizing s with
  | nil => exact hu
  | cons a acts ih =>
    have : s.step a = s := by
      cases a with
      | announce => simp [State.step, hw]
      | task i =>
        simp only [State.step]
        unfold State.stepTask
        cases hi : s.tasks[i]? with
        | none => rfl
        | some p =>
          have := hd p (List.mem_of_getElem? hi)
          subst this
          rfl
      | wait => simp [State.step, hw]
      | waiter => simp [State.step, State.stepWaiter, hw]
      | spurious => simp [State.step, hw]
      | destroy => simp [State.step, hw]
    show ((s.step a).run acts).uaf = false
    rw [this]
    exact ih s hw hd hu

/-- **C37**, second part, partial: if `wait_completions` saw that all the requests were finished while it
had the lock, and no request was submitted since its call, then the scheduler can be destroyed: no
task uses it afterwards. Missing: when the first reading, without the lock, finds that there is no
running request; then the claim is false, see `C37_use_after_free`. -/
theorem C37_destroy_partial (acts after : List Act) (hw : (init.run acts).waiter = .returned)
    (hs : (init.run acts).seen = true)
    (hb : (init.run acts).base = (init.run acts).tasks.length) :
    ((init.run acts).run (.destroy :: after)).uaf = false := by
  have h := inv_init.run acts
  generalize init.run acts = s at *
  have hd : ∀ p ∈ s.tasks, p = .done := by
    intro p hp
    obtain ⟨i, hi⟩ := List.getElem?_of_mem hp
    exact h.seen hs i p (by rw [hb]; exact (List.getElem?_eq_some_iff.mp hi).1) hi
  show ((s.step .destroy).run after).uaf = false
  have he : s.step .destroy = { s with waiter := .destroyed } := by
    unfold State.step; dsimp only; rw [if_pos hw]
  rw [he]
  exact run_done after _ rfl hd (h.nouaf (by simp [hw]))

example : (init.run sample).waiter = .returned ∧ (init.run sample).seen = true ∧
    (init.run sample).base = (init.run sample).tasks.length := by decide

/-- While the scheduler is not destroyed, nothing wrong happens. -/
theorem C37_no_early_fault (acts : List Act) (hd : (init.run acts).waiter ≠ .destroyed) :
    (init.run acts).uaf = false := (inv_init.run acts).nouaf hd

end Verif.Aio.Pool
