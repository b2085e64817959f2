import Verif.Aio.Linux

/-!
# Properties of the Linux asynchronous I/O scheduler (C38)
-/

namespace Verif.Aio.Linux

/-- The requests in the hands of the completion thread -/
def LPc.pend : LPc → List Nat
  | .got es => es
  | .notifying es _ => es
  | _ => []

/-- The requests notified and not counted yet -/
def LPc.batch : LPc → Nat
  | .notifying es n => n - es.length
  | _ => 0

/-- The requests that are not submitted yet -/
def todos (subs : List Sub) : List Nat := subs.flatMap Sub.todo

/-- The invariant of the requests and of the counters -/
structure Inv (s : State) : Prop where
  part : ∀ i, s.kernel.count i + s.loop.pend.count i + s.notified.count i + s.lost.count i +
    (todos s.subs).count i = (List.range s.next).count i
  sub : s.submitted.toNat = s.next
  comp : s.completed.toNat + s.loop.batch = s.notified.length
  fail : s.failed.toNat = s.lost.length
  batch : ∀ es n, s.loop = .notifying es n → es.length ≤ n
  exit : s.loop = .exited → s.stop = true ∧ s.next ≤ s.notified.length + s.lost.length

theorem count_todos_set {subs : List Sub} {j : Nat} {u : Sub} (w : Sub) (hj : subs[j]? = some u)
    (i : Nat) : (todos (subs.set j w)).count i + u.todo.count i =
      (todos subs).count i + w.todo.count i := by
  induction subs generalizing j with
  | nil => simp at hj
  | cons a subs ih =>
    cases j with
    | zero =>
      simp at hj; subst hj
      simp [todos, List.count_append]
      omega
    | succ j =>
      simp at hj
      have := ih hj
      simp [todos, List.count_append] at this ⊢
      omega

theorem todos_signal (subs : List Sub) : todos (subs.map Sub.signal) = todos subs := by
  induction subs with
  | nil => rfl
  | cons a subs ih =>
    simp only [todos, List.map_cons, List.flatMap_cons] at ih ⊢
    rw [ih]
    congr 1
    unfold Sub.signal
    split <;> rfl

theorem count_filter_add (l : List Nat) (p : Nat → Bool) (i : Nat) :
    (l.filter p).count i + (l.filter (fun x => !p x)).count i = l.count i := by
  induction l with
  | nil => rfl
  | cons a l ih =>
    cases h : p a <;> simp [h, List.count_cons] at ih ⊢ <;> omega

theorem Inv.total {s : State} (h : Inv s) : s.kernel.length + s.loop.pend.length + s.notified.length +
    s.lost.length + (todos s.subs).length = s.next := by
  have : (s.kernel ++ s.loop.pend ++ s.notified ++ s.lost ++ todos s.subs).Perm (List.range s.next) := by
    rw [List.perm_iff_count]
    intro i
    simp only [List.count_append]
    exact h.part i
  have := this.length_eq
  simp at this
  omega

theorem inv_init (cap : Nat) : Inv (init cap) where
  part := by simp [init, LPc.pend, todos]
  sub := rfl
  comp := rfl
  fail := rfl
  batch := by simp [init]
  exit := by simp [init]

theorem count_range'_add (a n i : Nat) :
    (List.range a).count i + (List.range' a n).count i = (List.range (a + n)).count i := by
  rw [← List.count_append, List.range_eq_range', List.range_eq_range']
  congr 1
  have := List.range'_append (s := 0) (m := a) (n := n) (step := 1)
  simpa using this

theorem Inv.setTodo {s : State} (h : Inv s) {j : Nat} {u : Sub} (w : Sub) (hj : s.subs[j]? = some u)
    (hw : w.todo = u.todo) (b : Bool) : Inv { s with subs := s.subs.set j w, waiting := b } where
  part := by
    intro i
    have h1 := h.part i
    have h2 := count_todos_set w hj i
    rw [hw] at h2
    simp only
    omega
  sub := h.sub
  comp := h.comp
  fail := h.fail
  batch := h.batch
  exit := h.exit

theorem toNat_add_ofNat (x : UInt64) (n : Nat) (h : x.toNat + n < 2 ^ 64) :
    (x + UInt64.ofNat n).toNat = x.toNat + n := by
  rw [UInt64.toNat_add, UInt64.toNat_ofNat']
  omega

theorem Inv.step {s : State} (h : Inv s) (a : Act) (ha : ∀ e, a ≠ .reapError e)
    (hn : (s.step a).next < 2 ^ 64) : Inv (s.step a) := by
  cases a with
  | call n =>
    unfold State.step at hn ⊢
    dsimp only at hn ⊢
    split
    · exact h
    · rename_i hs
      rw [if_neg hs] at hn
      dsimp only at hn
      refine ⟨?_, ?_, h.comp, h.fail, h.batch, ?_⟩
      · intro i
        have h1 := h.part i
        have h2 := count_range'_add s.next n i
        simp only [todos, List.flatMap_append, List.flatMap_cons, List.flatMap_nil, List.append_nil,
          List.count_append] at h1 ⊢
        omega
      · have := h.sub
        simp only
        rw [toNat_add_ofNat _ _ (by omega)]
        omega
      · intro he
        have := (h.exit he).1
        simp [this] at hs
  | submit j k =>
    unfold State.step
    dsimp only
    split
    · rename_i todo hj
      split
      · exact h.setTodo ⟨todo, .eagain⟩ hj rfl s.waiting
      · refine ⟨?_, h.sub, h.comp, h.fail, h.batch, h.exit⟩
        intro i
        have h1 := h.part i
        have h2 := count_todos_set (⟨todo.drop (min (max 1 k) (s.cap - s.kernel.length)),
          if todo.drop (min (max 1 k) (s.cap - s.kernel.length)) = [] then .finished else .trying⟩) hj i
        have h3 : todo.count i = (todo.take (min (max 1 k) (s.cap - s.kernel.length))).count i +
            (todo.drop (min (max 1 k) (s.cap - s.kernel.length))).count i := by
          rw [← List.count_append, List.take_append_drop]
        simp only [List.count_append] at h2 ⊢
        omega
    · exact h
  | submitError j =>
    unfold State.step
    dsimp only
    split
    · rename_i todo hj
      have htot := h.total
      have hle : todo.length ≤ (todos s.subs).length := by
        obtain ⟨l1, l2, hl⟩ := List.append_of_mem (List.mem_of_getElem? hj)
        simp [todos, hl]
        omega
      have hnext : s.next < 2 ^ 64 := by have := s.submitted.toNat_lt; have := h.sub; omega
      refine ⟨?_, h.sub, h.comp, ?_, h.batch, ?_⟩
      · intro i
        have h1 := h.part i
        have h2 := count_todos_set ⟨[], .failed⟩ hj i
        simp only [List.count_append, List.count_nil] at h2 ⊢
        omega
      · have := h.fail
        simp only [List.length_append]
        rw [toNat_add_ofNat _ _ (by omega)]
        omega
      · intro he
        have := h.exit he
        simp only [List.length_append]
        exact ⟨this.1, by omega⟩
    · exact h
  | lockWait j =>
    unfold State.step
    dsimp only
    split
    · rename_i todo hj
      exact h.setTodo ⟨todo, .sleeping false⟩ hj rfl true
    · exact h
  | wake j =>
    unfold State.step
    dsimp only
    split
    · rename_i todo b hj
      exact h.setTodo ⟨todo, if s.waiting then .sleeping false else .trying⟩ hj rfl s.waiting
    · exact h
  | reap events =>
    unfold State.step
    dsimp only
    split
    · rename_i hl
      have hpend : s.loop.pend = [] := by rw [hl]; rfl
      have hbatch : s.loop.batch = 0 := by rw [hl]; rfl
      have hpart := h.part
      have hcomp := h.comp
      have htot := h.total
      rw [hpend] at hpart htot
      rw [hbatch] at hcomp
      have hnext : s.next < 2 ^ 64 := by have := s.submitted.toNat_lt; have := h.sub; omega
      split
      · rename_i hf
        refine ⟨hpart, h.sub, hcomp, h.fail, by simp, ?_⟩
        intro _
        unfold State.finished at hf
        simp only [Bool.and_eq_true, Bool.not_eq_eq_eq_not, Bool.not_true, decide_eq_false_iff_not,
          UInt64.not_lt, UInt64.le_iff_toNat_le] at hf
        refine ⟨hf.1, ?_⟩
        have h1 := hf.2
        have hs := h.sub
        have hfail := h.fail
        simp at htot
        rw [UInt64.toNat_add] at h1
        simp only
        omega
      · refine ⟨?_, h.sub, ?_, h.fail, ?_, ?_⟩
        · intro i
          have h1 := hpart i
          have h2 := count_filter_add s.kernel (fun i => events.contains i) i
          simp only
          split
          · rename_i hnil
            rw [hnil] at h2
            simp [LPc.pend] at h1 h2 ⊢
            omega
          · simp [LPc.pend] at h1 h2 ⊢
            omega
        · simp only
          split <;> simpa [LPc.batch] using hcomp
        · intro es n he
          simp only at he
          split at he <;> cases he
        · intro he
          simp only at he
          split at he <;> cases he
    · exact h
  | reapError e => exact absurd rfl (ha e)
  | loop =>
    unfold State.step
    dsimp only
    split
    · rename_i es hl
      have hpart := h.part
      have hcomp := h.comp
      rw [hl] at hpart hcomp
      refine ⟨?_, h.sub, ?_, h.fail, ?_, by simp⟩
      · intro i
        simp only [todos_signal]
        exact hpart i
      · simpa [LPc.batch] using hcomp
      · intro es' n' he
        cases he; exact Nat.le_refl _
    · rename_i e es n hl
      have hpart := h.part
      have hcomp := h.comp
      have hb := h.batch _ _ hl
      rw [hl] at hpart hcomp
      refine ⟨?_, h.sub, ?_, h.fail, ?_, by simp⟩
      · intro i
        have h1 := hpart i
        simp only [LPc.pend, List.count_append, List.count_cons, List.count_nil] at h1 ⊢
        omega
      · simp only [LPc.batch, List.length_append, List.length_cons, List.length_nil] at hcomp hb ⊢
        omega
      · intro es' n' he
        cases he
        simp at hb; omega
    · rename_i n hl
      have hpart := h.part
      have hcomp := h.comp
      have htot := h.total
      rw [hl] at hpart hcomp htot
      have hnext : s.next < 2 ^ 64 := by have := s.submitted.toNat_lt; have := h.sub; omega
      simp only [LPc.batch, List.length_nil, Nat.sub_zero, LPc.pend] at hcomp htot
      refine ⟨hpart, h.sub, ?_, h.fail, by simp, by simp⟩
      simp only [LPc.batch]
      rw [toNat_add_ofNat _ _ (by omega)]
      omega
    · exact h
  | stop =>
    exact ⟨h.part, h.sub, h.comp, h.fail, h.batch, fun he => ⟨rfl, (h.exit he).2⟩⟩

theorem next_mono (s : State) (a : Act) : s.next ≤ (s.step a).next := by
  cases a <;> unfold State.step <;> dsimp only
  case reapError e => split <;> exact Nat.le_refl _
  case stop => exact Nat.le_refl _
  case call n =>
    split
    · exact Nat.le_refl _
    · dsimp only; omega
  case reap e => split <;> (try split) <;> exact Nat.le_refl _
  all_goals (split <;> (try split) <;> exact Nat.le_refl _)

theorem next_mono_run (acts : List Act) (s : State) : s.next ≤ (s.run acts).next := by
  induction acts generalizing s with
  | nil => exact Nat.le_refl _
  | cons a acts ih => exact Nat.le_trans (next_mono s a) (ih (s.step a))

theorem Inv.run {s : State} (h : Inv s) (acts : List Act) (ha : ∀ e, Act.reapError e ∉ acts)
    (hn : (s.run acts).next < 2 ^ 64) : Inv (s.run acts) := by
  induction acts generalizing s with
  | nil => exact h
  | cons a acts ih =>
    have h1 : (s.step a).next < 2 ^ 64 := Nat.lt_of_le_of_lt (next_mono_run acts _) hn
    exact ih (h.step a (fun e he => ha e (by simp [he])) h1) (fun e he => ha e (by simp [he])) hn

/-! ## C38 -/

/-- A schedule for the examples: two calls with three and one requests on a queue of two, a full queue,
a wake-up, an error of submission, and the end -/
def sample : List Act :=
  [.call 3, .submit 0 5, .submit 0 1, .lockWait 0, .call 1, .submit 1 1, .lockWait 1, .reap [1],
   .loop, .loop, .wake 0, .submit 0 1, .wake 1, .submitError 1, .loop, .reap [0, 2], .loop, .loop,
   .loop, .loop, .stop, .reap []]

/-- **C38**, partial: without an error of `io_getevents`, when `wait_completions` returns, every request
either was notified, exactly once, or is one of those for which `io_submit` returned an error; there is
no request left in the kernel or in a submission. This holds for all the queue sizes and all the
interleavings. See `C38_lost_wakeup` for the part of the claim that is false, and
`C38_getevents_error` for the case of an error. -/
theorem C38_wait_partial (cap : Nat) (acts : List Act) (ha : ∀ e, Act.reapError e ∉ acts)
    (hn : ((init cap).run acts).next < 2 ^ 64) (hw : ((init cap).run acts).waited) :
    ((init cap).run acts).kernel = [] ∧ todos ((init cap).run acts).subs = [] ∧
      ∀ i < ((init cap).run acts).next,
        ((init cap).run acts).notified.count i + ((init cap).run acts).lost.count i = 1 := by
  have h := (inv_init cap).run acts ha hn
  generalize (init cap).run acts = s at *
  have htot := h.total
  have hex := (h.exit hw.2).2
  have hp : s.loop.pend = [] := by rw [hw.2]; rfl
  have hk : s.kernel = [] := List.length_eq_zero_iff.mp (by omega)
  have ht : todos s.subs = [] := List.length_eq_zero_iff.mp (by omega)
  refine ⟨hk, ht, ?_⟩
  intro i hi
  have := h.part i
  rw [hk, ht, hp] at this
  simp only [List.count_nil, Nat.zero_add, Nat.add_zero] at this
  rw [this]
  have h1 : (List.range s.next).count i ≤ 1 := List.nodup_iff_count.mp List.nodup_range i
  have h2 := List.count_pos_iff.mpr (List.mem_range.mpr hi)
  omega

example : ((init 2).run sample).waited ∧ ((init 2).run sample).next = 4 ∧
    ((init 2).run sample).notified = [1, 0, 2] ∧ ((init 2).run sample).lost = [3] := by decide

/-- At any time, the callbacks are called at most once, and only for submitted requests. -/
theorem C38_once (cap : Nat) (acts : List Act) (ha : ∀ e, Act.reapError e ∉ acts)
    (hn : ((init cap).run acts).next < 2 ^ 64) :
    ((init cap).run acts).notified.Nodup ∧
      ∀ i ∈ ((init cap).run acts).notified, i < ((init cap).run acts).next := by
  have h := (inv_init cap).run acts ha hn
  generalize (init cap).run acts = s at *
  constructor
  · rw [List.nodup_iff_count]
    intro i
    have h1 := h.part i
    have h2 : (List.range s.next).count i ≤ 1 := List.nodup_iff_count.mp List.nodup_range i
    omega
  · intro i hi
    have h1 := h.part i
    have h2 := List.count_pos_iff.mpr hi
    exact List.mem_range.mp (List.count_pos_iff.mp (by omega))

/-- The state in which a wake-up was lost: the queue has one slot; the second submission finds it full;
before it starts to wait, the first request completes. -/
def lost : State :=
  (init 1).run [.call 1, .submit 0 1, .call 1, .submit 1 1, .reap [0], .loop, .loop, .loop, .lockWait 1]

/-- C38 is violated: a wake-up can be lost, and then the submission never ends, although the queue is
empty, and `wait_completions` never returns, whatever happens next, unless another request is
submitted (the lock is taken after `io_submit`, linux_aio_scheduler.cpp L129-153). -/
theorem C38_lost_wakeup (acts : List Act) (hc : ∀ n, Act.call n ∉ acts)
    (he : ∀ e, Act.reapError e ∉ acts) :
    (lost.run acts).kernel = [] ∧ (lost.run acts).subs[1]? = some ⟨[1], .sleeping false⟩ ∧
      ¬ (lost.run acts).waited := by
  have key : ∀ (acts : List Act) (s : State), (∀ n, Act.call n ∉ acts) →
      (∀ e, Act.reapError e ∉ acts) → (s = lost ∨ s = { lost with stop := true }) →
      s.run acts = lost ∨ s.run acts = { lost with stop := true } := by
    intro acts
    induction acts with
    | nil => intro s _ _ h; exact h
    | cons a acts ih =>
      intro s hc he h
      refine ih (s.step a) (fun n hn => hc n (by simp [hn])) (fun e hn => he e (by simp [hn])) ?_
      cases a with
      | call n => exact absurd (by simp) (hc n)
      | reapError e => exact absurd (by simp) (he e)
      | submit j k =>
        rcases j with _ | _ | j <;> rcases h with rfl | rfl
        · left; rfl
        · right; rfl
        · left; rfl
        · right; rfl
        · left; rfl
        · right; rfl
      | submitError j =>
        rcases j with _ | _ | j <;> rcases h with rfl | rfl
        · left; rfl
        · right; rfl
        · left; rfl
        · right; rfl
        · left; rfl
        · right; rfl
      | lockWait j =>
        rcases j with _ | _ | j <;> rcases h with rfl | rfl
        · left; rfl
        · right; rfl
        · left; rfl
        · right; rfl
        · left; rfl
        · right; rfl
      | wake j =>
        rcases j with _ | _ | j <;> rcases h with rfl | rfl
        · left; rfl
        · right; rfl
        · left; rfl
        · right; rfl
        · left; rfl
        · right; rfl
      | reap es =>
        rcases h with rfl | rfl
        · left; rfl
        · right; rfl
      | loop =>
        rcases h with rfl | rfl
        · left; rfl
        · right; rfl
      | stop =>
        rcases h with rfl | rfl
        · right; rfl
        · right; rfl
  rcases key acts lost hc he (Or.inl rfl) with h | h <;> rw [h] <;> decide

/-- C38 is violated when `io_getevents` fails, for instance with `-EINTR`: the error code is added to the
number of completed requests (linux_aio_scheduler.cpp L87), and `wait_completions` returns although
the callback of a request was not called. -/
theorem C38_getevents_error :
    ((init 2).run [.call 1, .submit 0 1, .reapError 4, .stop, .reap []]).waited ∧
      ((init 2).run [.call 1, .submit 0 1, .reapError 4, .stop, .reap []]).notified = [] ∧
      ((init 2).run [.call 1, .submit 0 1, .reapError 4, .stop, .reap []]).lost = [] := by
  decide

/-- The schedules in which a submission that finds the queue full takes the lock immediately -/
def prompt (acts : List Act) : List Act :=
  acts.flatMap (fun a => match a with
    | .submit j k => [.submit j k, .lockWait j]
    | .lockWait _ => []
    | a => [a])

/-- Invariant of these schedules -/
structure Awake (s : State) : Prop where
  wait : s.waiting = true → s.kernel ≠ [] ∨ ∃ es, s.loop = .got es
  sleep : ∀ u ∈ s.subs, u.pc = .sleeping false → s.waiting = true
  noeagain : ∀ u ∈ s.subs, u.pc ≠ .eagain

theorem mem_set_cases {l : List Sub} {j : Nat} {w u : Sub} (h : u ∈ l.set j w) : u = w ∨ u ∈ l := by
  exact (List.mem_or_eq_of_mem_set h).symm

theorem Awake.submit {s : State} (h : Awake s) (hcap : 0 < s.cap) (j k : Nat) :
    Awake ((s.step (.submit j k)).step (.lockWait j)) := by
  cases hj : s.subs[j]? with
  | none =>
    simpa [State.step, hj] using h
  | some u =>
    obtain ⟨todo, pc⟩ := u
    have hjl := (List.getElem?_eq_some_iff.mp hj).1
    have hne := h.noeagain _ (List.mem_of_getElem? hj)
    by_cases hpc : pc = .trying
    · subst hpc
      by_cases hfull : s.cap ≤ s.kernel.length
      · have he : (s.step (.submit j k)).step (.lockWait j) =
            { s with waiting := true, subs := s.subs.set j ⟨todo, .sleeping false⟩ } := by
          simp only [State.step, hj]
          rw [if_pos hfull]
          simp only [List.getElem?_set_self hjl, List.set_set]
        rw [he]
        refine ⟨?_, ?_, ?_⟩
        · intro _
          left
          intro hn
          simp only at hn
          rw [hn] at hfull
          simp at hfull; omega
        · intro _ _ _; rfl
        · intro u hu
          rcases mem_set_cases hu with rfl | hu
          · simp
          · exact h.noeagain u hu
      · generalize hr : min (max 1 k) (s.cap - s.kernel.length) = r
        have he : (s.step (.submit j k)).step (.lockWait j) =
            { s with kernel := s.kernel ++ todo.take r,
                     subs := s.subs.set j ⟨todo.drop r, if todo.drop r = [] then .finished else .trying⟩ } := by
          have h1 : s.step (.submit j k) =
              { s with kernel := s.kernel ++ todo.take r,
                       subs := s.subs.set j ⟨todo.drop r, if todo.drop r = [] then .finished else .trying⟩ } := by
            simp only [State.step, hj]
            rw [if_neg hfull, hr]
          rw [h1]
          simp only [State.step, List.getElem?_set_self hjl]
          by_cases hd : todo.drop r = [] <;> simp only [hd, if_true, if_false]
        rw [he]
        refine ⟨?_, ?_, ?_⟩
        · intro hw
          rcases h.wait hw with h1 | h1
          · left
            simp [h1]
          · exact Or.inr h1
        · intro u hu hp
          rcases mem_set_cases hu with rfl | hu
          · simp only at hp
            split at hp <;> cases hp
          · exact h.sleep u hu hp
        · intro u hu
          rcases mem_set_cases hu with rfl | hu
          · simp only
            split <;> simp
          · exact h.noeagain u hu
    · have he : s.step (.submit j k) = s := by
        simp only [State.step, hj]
        cases pc <;> simp_all
      rw [he]
      have he2 : s.step (.lockWait j) = s := by
        simp only [State.step, hj]
        cases pc <;> simp_all
      rw [he2]
      exact h

theorem Awake.step {s : State} (h : Awake s) (a : Act) (h1 : ∀ j k, a ≠ .submit j k)
    (h2 : ∀ j, a ≠ .lockWait j) : Awake (s.step a) := by
  cases a with
  | call n =>
    unfold State.step
    dsimp only
    split
    · exact h
    · refine ⟨h.wait, ?_, ?_⟩
      · intro u hu hp
        simp only [List.mem_append, List.mem_singleton] at hu
        rcases hu with hu | rfl
        · exact h.sleep u hu hp
        · simp only at hp
          split at hp <;> cases hp
      · intro u hu
        simp only [List.mem_append, List.mem_singleton] at hu
        rcases hu with hu | rfl
        · exact h.noeagain u hu
        · simp only
          split <;> simp
  | submit j k => exact absurd rfl (h1 j k)
  | submitError j =>
    unfold State.step
    dsimp only
    split
    · refine ⟨h.wait, ?_, ?_⟩
      · intro u hu hp
        rcases mem_set_cases hu with rfl | hu
        · cases hp
        · exact h.sleep u hu hp
      · intro u hu
        rcases mem_set_cases hu with rfl | hu
        · simp
        · exact h.noeagain u hu
    · exact h
  | lockWait j => exact absurd rfl (h2 j)
  | wake j =>
    unfold State.step
    dsimp only
    split
    · refine ⟨h.wait, ?_, ?_⟩
      · intro u hu hp
        rcases mem_set_cases hu with rfl | hu
        · simp only at hp
          split at hp
          · rename_i hw; exact hw
          · cases hp
        · exact h.sleep u hu hp
      · intro u hu
        rcases mem_set_cases hu with rfl | hu
        · simp only
          split <;> simp
        · exact h.noeagain u hu
    · exact h
  | reap events =>
    unfold State.step
    dsimp only
    split
    · rename_i hl
      have hker : s.waiting = true → s.kernel ≠ [] := by
        intro hw
        rcases h.wait hw with h3 | ⟨es, h3⟩
        · exact h3
        · rw [hl] at h3; cases h3
      split
      · exact ⟨fun hw => Or.inl (hker hw), h.sleep, h.noeagain⟩
      · refine ⟨?_, h.sleep, h.noeagain⟩
        intro hw
        simp only
        split
        · rename_i hnil
          left
          have : s.kernel.filter (fun i => !events.contains i) = s.kernel := by
            rw [List.filter_eq_self]
            intro a ha
            have := List.filter_eq_nil_iff.mp hnil a ha
            simpa using this
          rw [this]
          exact hker hw
        · right; exact ⟨_, rfl⟩
    · exact h
  | reapError e =>
    unfold State.step
    dsimp only
    split
    · exact ⟨h.wait, h.sleep, h.noeagain⟩
    · exact h
  | loop =>
    unfold State.step
    dsimp only
    split
    · refine ⟨by simp, ?_, ?_⟩
      · intro u hu hp
        obtain ⟨w, -, rfl⟩ := List.mem_map.mp hu
        unfold Sub.signal at hp
        split at hp
        · cases hp
        · rename_i hns
          exact absurd hp (hns false)
      · intro u hu
        obtain ⟨w, hw, rfl⟩ := List.mem_map.mp hu
        unfold Sub.signal
        split
        · simp
        · exact h.noeagain w hw
    · rename_i e es n hl
      refine ⟨?_, h.sleep, h.noeagain⟩
      intro hw
      rcases h.wait hw with h3 | ⟨es, h3⟩
      · exact Or.inl h3
      · rw [hl] at h3; cases h3
    · rename_i n hl
      refine ⟨?_, h.sleep, h.noeagain⟩
      intro hw
      rcases h.wait hw with h3 | ⟨es, h3⟩
      · exact Or.inl h3
      · rw [hl] at h3; cases h3
    · exact h
  | stop => exact ⟨h.wait, h.sleep, h.noeagain⟩

theorem step_cap (s : State) (a : Act) : (s.step a).cap = s.cap := by
  cases a <;> unfold State.step <;> dsimp only
  case reap e => split <;> (try split) <;> rfl
  all_goals (try split) <;> (try split) <;> rfl

theorem Awake.run {s : State} (h : Awake s) (hcap : 0 < s.cap) (acts : List Act) :
    Awake (s.run (prompt acts)) := by
  induction acts generalizing s with
  | nil => exact h
  | cons a acts ih =>
    simp only [prompt, List.flatMap_cons, State.run, List.foldl_append]
    cases a with
    | submit j k =>
      exact ih (s := (s.step (.submit j k)).step (.lockWait j)) (h.submit hcap j k)
        (by rw [step_cap, step_cap]; exact hcap)
    | lockWait j => exact ih h hcap
    | call n => exact ih (s := s.step (.call n)) (h.step _ (by simp) (by simp)) (by rw [step_cap]; exact hcap)
    | submitError j => exact ih (s := s.step (.submitError j)) (h.step _ (by simp) (by simp)) (by rw [step_cap]; exact hcap)
    | wake j => exact ih (s := s.step (.wake j)) (h.step _ (by simp) (by simp)) (by rw [step_cap]; exact hcap)
    | reap e => exact ih (s := s.step (.reap e)) (h.step _ (by simp) (by simp)) (by rw [step_cap]; exact hcap)
    | reapError e => exact ih (s := s.step (.reapError e)) (h.step _ (by simp) (by simp)) (by rw [step_cap]; exact hcap)
    | loop => exact ih (s := s.step .loop) (h.step _ (by simp) (by simp)) (by rw [step_cap]; exact hcap)
    | stop => exact ih (s := s.step .stop) (h.step _ (by simp) (by simp)) (by rw [step_cap]; exact hcap)

/-- **C38**, partial: when no completion is reaped between a failed `io_submit` and the beginning of the
wait, no wake-up is lost: as long as a submission sleeps without being signalled, there is a request in
the kernel, or the completion thread is about to wake the submission up. -/
theorem C38_wakeup_partial (cap : Nat) (hcap : 0 < cap) (acts : List Act) (u : Sub)
    (hu : u ∈ ((init cap).run (prompt acts)).subs) (hs : u.pc = .sleeping false) :
    ((init cap).run (prompt acts)).kernel ≠ [] ∨
      ∃ es, ((init cap).run (prompt acts)).loop = .got es := by
  have h0 : Awake (init cap) := ⟨by simp [init], by simp [init], by simp [init]⟩
  have h := h0.run hcap acts
  exact h.wait (h.sleep u hu hs)

example : (⟨[2], .sleeping false⟩ : Sub) ∈ ((init 2).run (prompt (sample.take 3))).subs := by decide

/-- and when the completion thread gets a request, all the submissions are woken up. -/
theorem C38_wakes_all (s : State) (es : List Nat) (hl : s.loop = .got es) (j : Nat) (u : Sub)
    (hu : s.subs[j]? = some u) (hs : ∃ b, u.pc = .sleeping b) :
    ((s.step .loop).step (.wake j)).subs[j]? = some ⟨u.todo, .trying⟩ := by
  obtain ⟨todo, pc⟩ := u
  obtain ⟨b, rfl⟩ : ∃ b, pc = .sleeping b := hs
  have hjl := (List.getElem?_eq_some_iff.mp hu).1
  have h1 : s.step .loop = { s with waiting := false, subs := s.subs.map Sub.signal,
                                    loop := .notifying es es.length } := by
    simp only [State.step, hl]
  have h2 : (s.subs.map Sub.signal)[j]? = some ⟨todo, .sleeping true⟩ := by
    rw [List.getElem?_map, hu]; rfl
  rw [h1]
  simp only [State.step, h2]
  simp [hjl]

end Verif.Aio.Linux
