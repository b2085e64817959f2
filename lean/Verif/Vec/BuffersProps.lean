import Verif.Vec.BuffersGood

/-!
# The memory of the asynchronous accesses of the on-disk vector (C55)

C55: every buffer that `async_get`, `async_gets` or `async_push_back` allocates is released exactly once,
not before the kernel or a worker has finished with it and not while its owner holds it, and every
accepted request has its callback called exactly once, whatever fails.

This is false: see the theorems `C55_…_violated`. What holds is shown for the schedules in which a failing
`async_gets` submitted none of its requests.
-/

namespace Verif.Vec.Buf

/-- When no `async_gets` fails after some of its requests were accepted, the memory is only used between
its allocation and its release, in all the interleavings. -/
theorem C55_safe_partial (c : Cfg) (size : Nat) (committed sched : Bool) (acts : List Act)
    (h : AllOrNothing ((init size committed sched).run c acts).trace) :
    Safe ((init size committed sched).run c acts).trace :=
  ((inv_init c size committed sched).run acts h).safe

/-- Under the same condition, when nothing is in progress and the users destroyed their results, exactly
the forgotten buffers are not released, and the others are released once. -/
theorem C55_released_partial (c : Cfg) (size : Nat) (committed sched : Bool) (acts : List Act)
    (h : AllOrNothing ((init size committed sched).run c acts).trace)
    (hq : ((init size committed sched).run c acts).Quiet) (b : Nat)
    (hb : Allocated ((init size committed sched).run c acts).trace b) :
    (Forgotten ((init size committed sched).run c acts).trace b →
      releases ((init size committed sched).run c acts).trace b = 0) ∧
    (¬ Forgotten ((init size committed sched).run c acts).trace b →
      releases ((init size committed sched).run c acts).trace b = 1) := by
  have hi := (inv_init c size committed sched).run acts h
  generalize (init size committed sched).run c acts = s at *
  obtain ⟨k, hk⟩ := hb
  have hp := hi.part b
  rw [if_pos (hi.bound b k hk)] at hp
  obtain ⟨h1, h2, h3⟩ := hq
  simp [inflN, h1, h2, h3, pend] at hp
  have hforg : Forgotten s.trace b ↔ 0 < s.trace.countP (Event.forgets b) := by
    rw [List.countP_pos_iff]
    rfl
  rw [hforg]
  unfold releases
  constructor <;> intro _ <;> omega

/-- Under the same condition, the callback of a read is called exactly once if its call returned, at most
once before everything is finished, and never if its call threw. -/
theorem C55_callbacks_partial (c : Cfg) (size : Nat) (committed sched : Bool) (acts : List Act)
    (h : AllOrNothing ((init size committed sched).run c acts).trace) :
    (∀ b, callbacks ((init size committed sched).run c acts).trace b ≤ 1) ∧
    (∀ k e bs, Event.threw k e bs ∈ ((init size committed sched).run c acts).trace → ∀ b ∈ bs,
      callbacks ((init size committed sched).run c acts).trace b = 0) ∧
    (((init size committed sched).run c acts).Quiet → ∀ k bs, k ≠ .push →
      Event.returned k bs ∈ ((init size committed sched).run c acts).trace → ∀ b ∈ bs,
      callbacks ((init size committed sched).run c acts).trace b = 1) := by
  have hi := (inv_init c size committed sched).run acts h
  generalize (init size committed sched).run c acts = s at *
  have hcb : ∀ b, callbacks s.trace b = s.trace.countP (Event.isCb b) := by
    intro b
    refine List.countP_congr ?_
    intro e _
    cases e <;> simp [Event.isCb]
  refine ⟨?_, ?_, ?_⟩
  · intro b
    rw [hcb]
    have h1 := hi.once b
    have h2 := hi.subm b
    omega
  · intro k e bs hb b hbb
    rw [hcb]
    have h1 := (hi.threw k e bs hb b hbb).1
    have h2 := hi.subm b
    omega
  · intro hq k bs hk hb b hbb
    rw [hcb]
    obtain ⟨h1, h2⟩ := hi.returned k bs hb b hbb
    have h3 := hi.subm b
    have h4 : inflN s b = 0 := by simp [inflN, hq.2.1]
    have h5 : s.trace.countP (Event.isWrote b) = 0 := by
      rcases Nat.eq_zero_or_pos (s.trace.countP (Event.isWrote b)) with h0 | h0
      · exact h0
      · exact absurd (hi.uniq b _ _ h1 (hi.wrote b (mem_of_isWrote h0))) hk
    omega

/-- Under the same condition, the request object that the Linux scheduler makes for an accepted request is
deleted exactly once. -/
theorem C55_requests_partial (c : Cfg) (hl : c.page.isSome = true) (size : Nat) (committed sched : Bool)
    (acts : List Act) (h : AllOrNothing ((init size committed sched).run c acts).trace)
    (hq : ((init size committed sched).run c acts).Quiet) (b : Nat)
    (hb : Event.submitted b ∈ ((init size committed sched).run c acts).trace) :
    ((init size committed sched).run c acts).trace.count (.newReq b) = 1 ∧
    ((init size committed sched).run c acts).trace.count (.delReq b) = 1 := by
  have hi := (inv_init c size committed sched).run acts h
  generalize (init size committed sched).run c acts = s at *
  have hpos := mem_of_isSub.1 hb
  have h1 : s.trace.count (.newReq b) = s.trace.countP (Event.isNew b) := by
    refine List.countP_congr ?_
    intro e _
    cases e <;> simp [Event.isNew]
  have h2 : s.trace.count (.delReq b) = s.trace.countP (Event.isDel b) := by
    refine List.countP_congr ?_
    intro e _
    cases e <;> simp [Event.isDel]
  rw [h1, h2]
  refine ⟨hi.newReq hl b hpos, ?_⟩
  have h3 := hi.reqs hl b
  have h4 : inflN s b = 0 := by simp [inflN, hq.2.1]
  have h5 := hi.once b
  omega

/-- With the scheduler on a thread pool, or when the alignment of the type is a multiple of the page size
of the Linux scheduler, its size a multiple of 512 and `io_submit` does not fail, all the calls submit
all their requests or none: the condition of the theorems above holds. -/
theorem C55_condition (c : Cfg) (align : Nat) (hf : c.fits align) (size : Nat) (committed sched : Bool)
    (acts : List Act) (hg : acts.all (Act.good align) = true) :
    AllOrNothing ((init size committed sched).run c acts).trace :=
  ((inv_init c size committed sched).runGood hf (by simp [init]) acts hg).allOrNothing

/-- The requests to submit, and those submitted, satisfy `Q`. -/
structure Old (Q : Nat → Prop) (s : State) : Prop where
  todo : ∀ u ∈ s.calls, ∀ b ∈ u.todo, Q b
  sub : ∀ b, Event.submitted b ∈ s.trace → Q b

theorem Old.start {c : Cfg} {s : State} {Q : Nat → Prop} (h : Old Q s) (k : Kind) (p : List (Nat × Nat × Nat) × Bool)
    (hp : ∀ b ∈ c.passing s.stop p.1, Q b) : Old Q (s.start c k p) := by
  unfold State.start
  split
  · refine ⟨?_, ?_⟩
    · intro u hu b hb
      rw [List.mem_append, List.mem_singleton] at hu
      rcases hu with hu | rfl
      · exact h.todo u hu b hb
      · exact hp b hb
    · intro b hb
      simp only [List.mem_append, List.mem_map] at hb
      rcases hb with (hb | ⟨_, _, hb⟩) | hb
      · exact h.sub b hb
      · cases hb
      · split at hb
        · obtain ⟨_, _, hb⟩ := List.mem_map.mp hb; cases hb
        · simp at hb
  · refine ⟨h.todo, ?_⟩
    intro b hb
    simp only [List.mem_append, List.mem_map, List.mem_singleton] at hb
    rcases hb with (hb | ⟨_, _, hb⟩) | hb
    · exact h.sub b hb
    · cases hb
    · cases hb

theorem Old.step {c : Cfg} {s : State} {Q : Nat → Prop} (h : Old Q s) (a : Act)
    (hp : ∀ rs, ∀ b ∈ c.passing s.stop (prepare s.size s.next rs).1, Q b) : Old Q (s.step c a) := by
  have hset : ∀ (j : Nat) (u v : Call), s.calls[j]? = some u → (∀ b ∈ v.todo, b ∈ u.todo) →
      ∀ x ∈ s.calls.set j v, ∀ b ∈ x.todo, Q b := by
    intro j u v hj hv x hx b hb
    rcases List.mem_or_eq_of_mem_set hx with hx | rfl
    · exact h.todo x hx b hb
    · exact h.todo u (List.mem_of_getElem? hj) b (hv b hb)
  cases a with
  | get i mem =>
    unfold State.step
    dsimp only
    split
    · exact ⟨h.todo, fun b hb => h.sub b (by simpa using hb)⟩
    · exact h.start _ _ (fun b hb => hp _ b hb)
  | gets rs =>
    unfold State.step
    dsimp only
    split
    · exact ⟨h.todo, fun b hb => h.sub b (by simpa using hb)⟩
    · exact h.start _ _ (fun b hb => hp _ b hb)
  | push mem =>
    unfold State.step
    dsimp only
    split
    · exact ⟨h.todo, fun b hb => h.sub b (by simpa using hb)⟩
    · have := h.start (c := c) .push (prepare s.size s.next [(s.size, mem)]) (fun b hb => hp _ b hb)
      exact ⟨this.todo, this.sub⟩
  | submit j n =>
    unfold State.step
    dsimp only
    split
    · exact h
    · rename_i u hu
      split
      · exact h
      · refine ⟨hset j u _ hu (fun b hb => List.mem_of_mem_drop hb), ?_⟩
        intro b hb
        simp only [List.mem_append, List.mem_map] at hb
        rcases hb with hb | ⟨x, hx, hb⟩
        · exact h.sub b hb
        · cases hb
          exact h.todo u (List.mem_of_getElem? hu) _ (List.mem_of_mem_take hx)
  | error j =>
    unfold State.step
    dsimp only
    split
    · rename_i u _ hu _
      split
      · exact h
      · exact ⟨hset j u _ hu (by simp), h.sub⟩
    · exact h
  | finish j =>
    unfold State.step
    dsimp only
    split
    · exact h
    · split
      · exact h
      · split
        · exact ⟨fun u hu => h.todo u (List.mem_of_mem_eraseIdx hu), fun b hb => h.sub b (by simpa using hb)⟩
        · refine ⟨fun u hu => h.todo u (List.mem_of_mem_eraseIdx hu), ?_⟩
          intro b hb
          simp only [List.mem_append, List.mem_singleton] at hb
          rcases hb with (hb | hb) | hb
          · exact h.sub b hb
          · split at hb
            · simp at hb
            · obtain ⟨_, _, hb⟩ := List.mem_map.mp hb; cases hb
          · cases hb
  | io i res =>
    unfold State.step
    dsimp only
    split
    · exact ⟨h.todo, fun b hb => h.sub b (by simpa using hb)⟩
    · exact h
  | notify i =>
    unfold State.step
    dsimp only
    split
    · rename_i b' k res _
      refine ⟨h.todo, ?_⟩
      intro b hb
      simp only [List.mem_append] at hb
      rcases hb with (hb | hb) | hb
      · exact h.sub b hb
      · cases k <;> simp only [inner] at hb <;> (try split at hb) <;> simp at hb
      · split at hb <;> simp at hb
    · exact h
  | drop i =>
    unfold State.step
    dsimp only
    split
    · exact ⟨h.todo, fun b hb => h.sub b (by simpa using hb)⟩
    · exact h
  | wait => exact ⟨h.todo, h.sub⟩
  | renew cm =>
    unfold State.step
    dsimp only
    split
    · exact ⟨h.todo, h.sub⟩
    · exact h

/-- **C55**, after `wait_completions`: with the Linux scheduler, until the scheduler is replaced, the only requests that are
submitted are those that calls in progress had still to submit; calls that begin later submit none. -/
theorem C55_after_wait (c : Cfg) (hl : c.page.isSome = true) (s : State) (acts : List Act)
    (hr : ∀ x, Act.renew x ∉ acts) (b : Nat) (hb : Event.submitted b ∈ ((s.step c .wait).run c acts).trace) :
    Event.submitted b ∈ s.trace ∨ ∃ u ∈ s.calls, b ∈ u.todo := by
  have key : ∀ (acts : List Act) (t : State), (∀ x, Act.renew x ∉ acts) → t.stop = true →
      Old (fun b => Event.submitted b ∈ s.trace ∨ ∃ u ∈ s.calls, b ∈ u.todo) t →
      Old (fun b => Event.submitted b ∈ s.trace ∨ ∃ u ∈ s.calls, b ∈ u.todo) (t.run c acts) := by
    intro acts
    induction acts with
    | nil => intro t _ _ h; exact h
    | cons a acts ih =>
      intro t hr hs h
      refine ih _ (fun x hx => hr x (List.mem_cons_of_mem _ hx)) ?_ (h.step a ?_)
      · cases a with
        | renew x => exact absurd (List.mem_cons_self ..) (hr x)
        | wait => rfl
        | _ => simp only [State.step, State.start]; (repeat' split) <;> simp_all
      · intro rs b hb
        simp [Cfg.passing, hl, hs] at hb
  exact (key acts (s.step c .wait) hr rfl ⟨fun u hu b hb => Or.inr ⟨u, hu, hb⟩, fun b hb => Or.inl hb⟩).sub b hb

/-! ## Examples and violations -/

/-- A Linux scheduler with pages of 4096 bytes, a committed vector of 10 elements; an `async_gets` of three
elements of which two are accepted first, and an `async_get` past the end (too few bytes): everything is
released. -/
def demo : List Act :=
  [.gets [(3, some 8192), (7, some 4096), (3, some 16384)], .submit 0 2, .io 0 4096, .get 10 (some 12288),
    .submit 0 1, .notify 0, .submit 1 1, .finish 1, .finish 0, .io 0 4096, .io 1 4096, .io 2 0, .notify 1,
    .drop 0, .notify 0, .notify 0, .drop 1, .drop 0, .wait, .gets [(1, some 4096)], .finish 0]

example : (⟨4096, some 4096⟩ : Cfg).fits 4096 ∧ demo.all (Act.good 4096) = true := by
  refine ⟨⟨⟨12, rfl⟩, by decide, by decide⟩, by decide⟩

example : AllOrNothing ((init 10 true true).run ⟨4096, some 4096⟩ demo).trace :=
  C55_condition ⟨4096, some 4096⟩ 4096 ⟨⟨12, rfl⟩, by decide, by decide⟩ _ _ _ _ (by decide)

/-- Non-vacuity of `C55_after_wait`: a call in progress goes on after `wait_completions`, a later one submits nothing. -/
example : Event.submitted 0 ∈ ((((init 10 true true).run ⟨4096, some 4096⟩ [.gets [(3, some 8192)]]).step
      ⟨4096, some 4096⟩ .wait).run ⟨4096, some 4096⟩ [.submit 0 1, .get 2 (some 4096), .submit 1 1]).trace ∧
    Event.submitted 1 ∉ ((((init 10 true true).run ⟨4096, some 4096⟩ [.gets [(3, some 8192)]]).step
      ⟨4096, some 4096⟩ .wait).run ⟨4096, some 4096⟩ [.submit 0 1, .get 2 (some 4096), .submit 1 1]).trace := by
  decide +kernel

example : ((init 10 true true).run ⟨4096, some 4096⟩ demo).Quiet ∧
    (∀ b < 5, releases ((init 10 true true).run ⟨4096, some 4096⟩ demo).trace b = 1) ∧
    (∀ b < 4, callbacks ((init 10 true true).run ⟨4096, some 4096⟩ demo).trace b = 1) ∧
    Event.returned .gets [0, 1, 2] ∈ ((init 10 true true).run ⟨4096, some 4096⟩ demo).trace ∧
    Event.threw .gets false [4] ∈ ((init 10 true true).run ⟨4096, some 4096⟩ demo).trace := by
  decide +kernel

/-- `io_submit` fails for the second of two requests: `async_gets` frees both buffers though the kernel
still has the first, which is written after its release. -/
theorem C55_written_after_free_violated : ∃ acts,
    Event.free 0 ∈ ((init 10 true true).run ⟨4096, some 4096⟩ acts).trace ∧
    ¬ Safe ((init 10 true true).run ⟨4096, some 4096⟩ acts).trace := by
  refine ⟨[.gets [(3, some 8192), (7, some 4096)], .submit 0 1, .error 0, .finish 0, .io 0 4096],
    by decide +kernel, ?_⟩
  intro h
  have := (h [.alloc 0 .gets, .alloc 1 .gets, .newReq 0, .newReq 1, .submitted 0, .free 0, .free 1,
    .threw .gets false [0, 1]] (.io 0) [] (by decide +kernel) 0 (by decide)).2
  revert this
  decide

/-- In the same situation, when the first read is complete before, its result is given to the user and
released twice, and a callback is called for a call that threw. -/
theorem C55_released_twice_violated : ∃ acts,
    releases ((init 10 true true).run ⟨4096, some 4096⟩ acts).trace 0 = 2 ∧
    callbacks ((init 10 true true).run ⟨4096, some 4096⟩ acts).trace 0 = 1 ∧
    Event.threw .gets false [0, 1] ∈ ((init 10 true true).run ⟨4096, some 4096⟩ acts).trace :=
  ⟨[.gets [(3, some 8192), (7, some 4096)], .submit 0 1, .io 0 4096, .notify 0, .error 0, .finish 0, .drop 0],
    by decide +kernel⟩

/-- The same happens without any error when the alignment of the type (512) is smaller than the page size
(4096): one of the buffers happens to be aligned to a page and the other does not. -/
theorem C55_alignment_violated : ∃ acts, acts.all (Act.good 512) = true ∧
    releases ((init 10 true true).run ⟨512, some 4096⟩ acts).trace 0 = 2 :=
  ⟨[.gets [(3, some 8192), (7, some 512)], .submit 0 1, .io 0 512, .finish 0, .notify 0, .drop 0],
    by decide +kernel⟩

/-- The buffer of a batched read that got too few bytes - here at the position `size()`, which `async_gets`
accepts - is never released. -/
theorem C55_short_read_forgotten_violated : ∃ acts, acts.all (Act.good 4096) = true ∧
    ((init 10 true true).run ⟨4096, none⟩ acts).Quiet ∧
    Event.alloc 0 .gets ∈ ((init 10 true true).run ⟨4096, none⟩ acts).trace ∧
    releases ((init 10 true true).run ⟨4096, none⟩ acts).trace 0 = 0 :=
  ⟨[.gets [(10, some 8192)], .submit 0 1, .io 0 0, .notify 0, .finish 0], by decide +kernel⟩

/-- The buffers that `async_gets` allocated before a wrong index are never released. -/
theorem C55_wrong_index_forgotten_violated : ∃ acts, acts.all (Act.good 4096) = true ∧
    ((init 10 true true).run ⟨4096, none⟩ acts).Quiet ∧
    Event.alloc 0 .gets ∈ ((init 10 true true).run ⟨4096, none⟩ acts).trace ∧
    releases ((init 10 true true).run ⟨4096, none⟩ acts).trace 0 = 0 :=
  ⟨[.gets [(9, some 8192), (11, some 4096)]], by decide +kernel⟩

/-- The buffer of a rejected `async_push_back` - here the size of the type is not a multiple of 512 - is
never released. -/
theorem C55_push_forgotten_violated : ∃ acts, acts.all (Act.good 4096) = true ∧
    ((init 0 false true).run ⟨4100, some 4096⟩ acts).Quiet ∧
    Event.alloc 0 .push ∈ ((init 0 false true).run ⟨4100, some 4096⟩ acts).trace ∧
    releases ((init 0 false true).run ⟨4100, some 4096⟩ acts).trace 0 = 0 :=
  ⟨[.push (some 8192), .finish 0], by decide +kernel⟩

/-- The request object of a request that `io_submit` refuses is never deleted. -/
theorem C55_request_forgotten_violated : ∃ acts,
    ((init 10 true true).run ⟨4096, some 4096⟩ acts).Quiet ∧
    Event.newReq 0 ∈ ((init 10 true true).run ⟨4096, some 4096⟩ acts).trace ∧
    Event.delReq 0 ∉ ((init 10 true true).run ⟨4096, some 4096⟩ acts).trace :=
  ⟨[.get 3 (some 8192), .error 0, .finish 0], by decide +kernel⟩

/-- Every result that reaches a user is memory of `posix_memalign` that is released by `delete`. -/
theorem C55_wrong_deallocation_violated : ∃ acts, acts.all (Act.good 4096) = true ∧
    Event.alloc 0 .get ∈ ((init 10 true true).run ⟨4096, none⟩ acts).trace ∧
    Event.delete 0 ∈ ((init 10 true true).run ⟨4096, none⟩ acts).trace :=
  ⟨[.get 3 (some 8192), .submit 0 1, .io 0 4096, .notify 0, .finish 0, .drop 0], by decide +kernel⟩

end Verif.Vec.Buf
