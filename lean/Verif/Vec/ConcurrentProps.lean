import Verif.Vec.ConcurrentLemmas

/-!
# C58: concurrent appends to the on-disk vector

When calls to `push_back` and `async_push_back` have returned and the vector is committed, the positions they
returned are `0, …, n-1`, each once, and at each is the value pushed by the call that returned it; and a call does
not change a committed vector. The claim is false for `push_back` called by several threads, and for calls which
overlap with `commit` or `reserve`.
-/

namespace Verif.Vec.Conc

open Verif Verif.Vec

variable {sz : Nat}

/-- **C58 (part that holds)**: any number of threads calling `async_push_back`, in every interleaving and for every
order of the writes. Missing: the cases below for which the claim is false. -/
theorem C58_async_partial (direct : Bool) (acts : List (Act sz)) (hc : Spec.NoCommit acts)
    (ha : Spec.OnlyAsync acts) (ho : Spec.Over ((State.init sz true direct).run acts)) :
    Spec.Right ((State.init sz true direct).run acts) := by
  obtain ⟨acc, h⟩ := ainv_run direct acts hc ha
  refine ⟨?_, fun c hc p x hp hx => h.get c hc p x hp hx⟩
  rw [position_over ho]
  exact run_perm _ _ acts

/-- **C58 (part that holds)**: calls to `push_back` and `reserve` that do not overlap. Missing: the cases below for
which the claim is false. -/
theorem C58_push_partial (sched direct : Bool) (acts : List (Act sz)) (hc : Spec.NoCommit acts)
    (ha : Spec.OnlySync acts) (h1 : Spec.OneAtATime sched direct acts)
    (ho : Spec.Over ((State.init sz sched direct).run acts)) :
    Spec.Right ((State.init sz sched direct).run acts) := by
  obtain ⟨W, h⟩ := oinv_run sched direct acts hc ha h1
  refine ⟨by rw [position_over ho]; exact run_perm _ _ acts, fun c hc p x hp hx => ?_⟩
  obtain ⟨m, hm⟩ := List.mem_iff_getElem?.mp hc
  have hp' := h.ret m c hm p x hp hx
  have hsz : ((State.init sz sched direct).run acts).vec.size = W.length := by
    apply h.idle
    intro m c hm q hq
    have := ho c (List.mem_of_getElem? hm)
    simp [Spec.ended, hq] at this
  have := (List.getElem?_eq_some_iff.mp hp').1
  exact h.w.get hp' (by omega)

/-- **C58 (part that holds)**: with any number of threads calling `push_back`, no value is lost and none is written
twice: the vector read after `commit` contains the values pushed, in some order. Missing: a value is not always at the
position returned, see `C58_push_violated`. -/
theorem C58_push_kept_partial (sched direct : Bool) (acts : List (Act sz)) (hc : Spec.NoCommit acts)
    (ha : Spec.OnlyPush acts) (ho : Spec.Over ((State.init sz sched direct).run acts)) :
    let s := (State.init sz sched direct).run acts
    (s.calls.filterMap Spec.position).Perm (List.range s.vec.size) ∧
    ∃ W : List (Val sz), W.length = s.vec.size ∧ W.Perm (Spec.values s.calls) ∧
      ∀ (i : Nat) x, W[i]? = some x → s.vec.commit.get i = .ok x := by
  intro s
  obtain ⟨W, h⟩ := pinv_run sched direct acts hc ha
  have hp : (s.calls.filterMap Spec.position).Perm (List.range s.vec.size) := by
    rw [position_over ho]; exact run_perm _ _ acts
  have hv : (Spec.values s.calls).length = (s.calls.filterMap Spec.position).length := by
    unfold Spec.values
    have : ∀ cs : List (Call sz), (∀ c ∈ cs, ∃ x, c.job = .push x) →
        (cs.filterMap fun c => if (Spec.position c).isSome then Spec.value c else none).length =
          (cs.filterMap Spec.position).length := by
      intro cs hcs
      induction cs with
      | nil => rfl
      | cons c cs ih =>
        have h2 := ih (fun d hd => hcs d (List.mem_cons_of_mem _ hd))
        obtain ⟨x, hx⟩ := hcs c (List.mem_cons_self ..)
        rw [List.filterMap_cons, List.filterMap_cons]
        cases hq : Spec.position c with
        | none => simpa using h2
        | some q => simpa [Spec.value, hx] using h2
    exact this _ h.only
  have hlen : W.length = s.vec.size := by
    rw [h.perm.length_eq, ← List.length_range (n := s.vec.size), ← hp.length_eq, ← hv]
    rfl
  refine ⟨hp, W, hlen, h.perm, fun i x hi => ?_⟩
  have := (List.getElem?_eq_some_iff.mp hi).1
  exact h.w.get hi (by show i ≤ s.vec.size; omega)

/-- **C58 (part that holds)**: after a `commit` with which no call overlapped, `push_back` and `reserve` change nothing,
in every interleaving. Missing: `async_push_back`, see `C34_async_push_after_commit`, and calls that overlap with `commit`, see
`C58_late_push_violated`. -/
theorem C58_committed_partial (s : State sz) (ho : Spec.Over s) (hc : s.vec.committed = false)
    (hp : s.vec.sched = true ∨ s.vec.pending = []) (acts : List (Act sz)) (ha : Spec.OnlySync acts) :
    ((s.step .commit).run acts).vec = s.vec.commit ∧
    ∀ c ∈ (((s.step .commit).run acts).calls.drop s.calls.length), Spec.position c = none := by
  have hpend : s.vec.commit.pending = [] := by
    unfold Vec.commit
    rw [if_neg (by simp [hc])]
    rcases hp with h | h
    · simp [h, Vec.wait]
    · cases s.vec.sched <;> simp [h, Vec.wait]
  suffices h : ((s.step .commit).run acts).vec = s.vec.commit ∧
      (s.calls.length ≤ ((s.step .commit).run acts).calls.length) ∧
      ∀ (m : Nat) c, ((s.step .commit).run acts).calls[m]? = some c →
        (m < s.calls.length → Spec.ended c = true) ∧
        (s.calls.length ≤ m → (∀ x, c.job ≠ .asyncPush x) ∧ (c.pc = .begun ∨ c.pc = .done ∨ c.pc = .threw)) by
    refine ⟨h.1, fun c hc => ?_⟩
    obtain ⟨m, hm⟩ := List.mem_iff_getElem?.mp hc
    rw [List.getElem?_drop] at hm
    have := ((h.2.2 _ c hm).2 (by omega)).2
    unfold Spec.position
    rcases this with h | h | h <;> rw [h]
  induction acts using List.reverseRecOn with
  | nil =>
    refine ⟨rfl, Nat.le_refl _, fun m c hm => ⟨fun _ => ho c (List.mem_of_getElem? hm), fun hle => ?_⟩⟩
    have := (List.getElem?_eq_some_iff.mp hm).1
    exact absurd this (by simpa [State.run, State.step] using hle)
  | append_singleton acts a ih =>
    have ih := ih (fun j hj => ha j (by rw [jobs_append]; exact List.mem_append_left _ hj))
    have ha' : ∀ j, a = .call j → ∀ x, j ≠ .asyncPush x := by
      rintro j rfl
      exact ha j (by rw [jobs_append]; simp [Spec.jobs])
    rw [State.run, List.foldl_append]
    change ((((s.step .commit).run acts).step a).vec = _ ∧ _ ≤ (((s.step .commit).run acts).step a).calls.length ∧
      ∀ (m : Nat) c, (((s.step .commit).run acts).step a).calls[m]? = some c → _)
    generalize (s.step .commit).run acts = t at ih
    obtain ⟨hv, hl, hcs⟩ := ih
    cases a with
    | commit =>
      refine ⟨?_, hl, hcs⟩
      show t.vec.commit = _
      rw [hv, Vec.commit, if_pos (commit_committed _)]
    | complete k =>
      refine ⟨?_, hl, hcs⟩
      show t.vec.complete k = _
      rw [hv, Vec.complete, hpend]
      rfl
    | call j =>
      refine ⟨hv, by simp only [State.step, List.length_append]; omega, fun m c hm => ?_⟩
      have hm' : (t.calls ++ [⟨j, .begun⟩])[m]? = some c := hm
      rcases getElem?_append_cases hm' with hm' | rfl
      · exact hcs m c hm'
      · refine ⟨fun hlt => ?_, fun _ => ⟨ha' j rfl, .inl rfl⟩⟩
        have : m < t.calls.length := by omega
        rw [List.getElem?_append_left this] at hm'
        exact (hcs m _ hm').1 hlt
    | advance n =>
      simp only [State.step]
      cases hn : t.calls[n]? with
      | none => exact ⟨hv, hl, hcs⟩
      | some c =>
        obtain ⟨j, pc⟩ := c
        have h2 := hcs n _ hn
        suffices hs : next t.vec j pc = (t.vec, (next t.vec j pc).2) ∧
            ((n < s.calls.length → Spec.ended (sz := sz) ⟨j, (next t.vec j pc).2⟩ = true) ∧
            (s.calls.length ≤ n → (∀ x, j ≠ .asyncPush x) ∧
              ((next t.vec j pc).2 = .begun ∨ (next t.vec j pc).2 = .done ∨ (next t.vec j pc).2 = .threw))) by
          refine ⟨(congrArg Prod.fst hs.1).trans hv, by simpa using hl, fun m d hm => ?_⟩
          rcases getElem?_set_cases hm with ⟨rfl, rfl⟩ | ⟨_, hm⟩
          · exact hs.2
          · exact hcs m d hm
        rcases Nat.lt_or_ge n s.calls.length with hlt | hge
        · have he := h2.1 hlt
          refine ⟨?_, fun _ => ?_, fun hle => absurd hlt (by omega)⟩
          · cases pc <;> simp [Spec.ended] at he <;> cases j <;> rfl
          · cases pc <;> simp [Spec.ended] at he <;> cases j <;> rfl
        · obtain ⟨hj, hpc⟩ := h2.2 hge
          have hcom : t.vec.committed = true := by rw [hv]; exact commit_committed _
          cases j with
          | asyncPush x => exact absurd rfl (hj x)
          | push x =>
            rcases hpc with h | h | h <;> simp only at h <;> subst h <;>
              simp [next, hcom] <;> intro h <;> omega
          | reserve k =>
            rcases hpc with h | h | h <;> simp only at h <;> subst h <;>
              simp [next, hcom] <;> intro h <;> omega

/-! ## Where the claim is false -/

/-- **C58 is violated by two threads calling `push_back`**: for every two different values of a non-empty type, with and
without a scheduler, there is a run in which both calls return and each position holds the value of the other call. -/
theorem C58_push_violated (sched direct : Bool) (x y : Val sz) (hxy : x ≠ y) :
    ∃ acts : List (Act sz), Spec.NoCommit acts ∧ Spec.OnlyPush acts ∧
      let s := (State.init sz sched direct).run acts
      s.calls = [⟨.push x, .returned 0⟩, ⟨.push y, .returned 1⟩] ∧
      s.vec.commit.get 0 = .ok y ∧ s.vec.commit.get 1 = .ok x ∧ ¬Spec.Right s := by
  refine ⟨[.call (.push x), .call (.push y), .advance 0, .advance 1, .advance 0, .advance 1, .advance 1, .advance 0],
    by intro a ha; simp at ha; rcases ha with rfl | rfl | rfl | rfl | rfl | rfl | rfl | rfl <;> simp,
    by intro j hj; simp [Spec.jobs] at hj; rcases hj with h | h <;> exact ⟨_, h⟩, ?_⟩
  intro s
  have hs : s = ⟨{ Vec.open sz [] sched direct with
      size := 2, offset := 0 + sz + sz,
      file := writeBytes (writeBytes [] 0 y.toList) (0 + sz) x.toList },
      [⟨.push x, .returned 0⟩, ⟨.push y, .returned 1⟩]⟩ := by
    rfl
  have hw : WInv s [y, x] := by
    rw [hs]
    have h0 := WInv.write (cs' := []) (winv_init (sz := sz) sched direct) y
    have h1 := WInv.write (cs' := []) h0 x
    exact ⟨h1.off, h1.slots, rfl, rfl⟩
  have g0 : s.vec.commit.get 0 = .ok y := hw.get rfl (Nat.zero_le _)
  have g1 : s.vec.commit.get 1 = .ok x := hw.get rfl (by rw [hs]; exact Nat.le_succ 1)
  refine ⟨by rw [hs], g0, g1, fun hr => ?_⟩
  have := hr.2 ⟨.push x, .returned 0⟩ (by rw [hs]; simp) 0 x rfl rfl
  rw [g0] at this
  exact hxy (by simpa using this.symm)

/-- **C58 is violated by a `push_back` that overlaps with `commit`**: the call passes the check, the vector is committed
and read as empty, and then the call writes to it and returns. -/
theorem C58_late_push_violated (sched direct : Bool) (x : Val sz) :
    ∃ before after : List (Act sz),
      let s := (State.init sz sched direct).run before
      let t := s.run after
      s.vec.committed = true ∧ s.vec.size = 0 ∧ s.vec.file = [] ∧ Spec.jobs after = [] ∧
      t.calls = [⟨.push x, .returned 0⟩] ∧ t.vec.size = 1 ∧ t.vec.file = x.toList := by
  refine ⟨[.call (.push x), .advance 0, .commit], [.advance 0, .advance 0], ?_⟩
  have hx : writeBytes ([] : List UInt8) 0 x.toList = x.toList := by
    simp [writeBytes]
  cases sched
  · exact ⟨rfl, rfl, rfl, rfl, rfl, rfl, hx⟩
  · exact ⟨rfl, rfl, rfl, rfl, rfl, rfl, hx⟩

/-- **C58 is violated by a `reserve` that overlaps with `push_back`**: `reserve` compares its argument to the size, other
calls return, and then `ftruncate` removes their values. -/
theorem C58_reserve_violated (sched direct : Bool) (x y : Val sz) (hsz : 0 < sz) :
    ∃ acts : List (Act sz), Spec.NoCommit acts ∧ Spec.OnlySync acts ∧
      let s := (State.init sz sched direct).run acts
      Spec.Over s ∧ (∃ c ∈ s.calls, c = ⟨.push y, .returned 1⟩) ∧
      s.vec.commit.get 1 ≠ .ok y ∧ ¬Spec.Right s := by
  refine ⟨[.call (.reserve 1), .advance 0, .call (.push x), .advance 1, .advance 1, .advance 1,
      .call (.push y), .advance 2, .advance 2, .advance 2, .advance 0],
    by intro a ha; simp at ha; rcases ha with rfl | rfl | rfl | rfl | rfl | rfl | rfl | rfl | rfl | rfl | rfl <;> simp,
    by intro j hj; simp [Spec.jobs] at hj; rcases hj with rfl | rfl | rfl <;> simp, ?_⟩
  intro s
  have hc : s.calls = [⟨.reserve 1, .done⟩, ⟨.push x, .returned 0⟩, ⟨.push y, .returned 1⟩] := by
    simp [s, State.run, State.step, State.init, next, Vec.open]
  have hf : ∃ f, s.vec.file = resize f (1 * sz) := by
    simp only [s, State.run, State.step, State.init, next, Vec.open, List.foldl_cons, List.foldl_nil]
    simp only [Nat.one_mul]
    simp
    exact ⟨_, rfl⟩
  have hm : s.vec.committed = false := by
    simp [s, State.run, State.step, State.init, next, Vec.open]
  have hp : s.vec.pending = [] := by
    simp [s, State.run, State.step, State.init, next, Vec.open]
  clear_value s
  have hover : Spec.Over s := by
    intro c h
    rw [hc] at h
    simp only [List.mem_cons, List.not_mem_nil, or_false] at h
    rcases h with rfl | rfl | rfl <;> rfl
  have hg : s.vec.commit.get 1 ≠ .ok y := by
    obtain ⟨f, hf⟩ := hf
    have hfile : s.vec.commit.file = s.vec.file := by
      unfold Vec.commit
      rw [if_neg (by simp [hm])]
      cases s.vec.sched
      · rfl
      · simp [Vec.wait, hp]
    have hlen : s.vec.commit.file.length ≤ 1 * sz := by
      rw [hfile, hf, resize, List.length_append, List.length_take, List.length_replicate]
      omega
    unfold Vec.get
    split
    · simp
    · split
      · simp
      · have hb : ((s.vec.commit.file.drop (1 * sz)).take sz).length ≠ sz := by
          rw [List.drop_eq_nil_of_le hlen]
          simp only [List.take_nil, List.length_nil]
          omega
        simp only [hb, dif_neg, not_false_eq_true]
        simp
  refine ⟨hover, ⟨_, by rw [hc]; simp, rfl⟩, hg, fun hr => hg ?_⟩
  exact hr.2 ⟨.push y, .returned 1⟩ (by rw [hc]; simp) 1 y rfl rfl

/-- What is known of the exceptions of a call -/
def thrown (sched : Bool) (c : Call sz) : Prop :=
  (c.pc = .threw → sched = false ∧ ∃ x, c.job = .asyncPush x) ∧
    ∀ x, c.job = .asyncPush x → c.pc ≠ .begun → (c.pc = .threw ↔ sched = false)

theorem thrown_run (sched direct : Bool) (acts : List (Act sz)) (hc : Spec.NoCommit acts) :
    ((State.init sz sched direct).run acts).vec.sched = sched ∧
    ((State.init sz sched direct).run acts).vec.committed = false ∧
    ∀ c ∈ ((State.init sz sched direct).run acts).calls, thrown sched c := by
  induction acts using List.reverseRecOn with
  | nil => exact ⟨rfl, rfl, fun c h => by cases h⟩
  | append_singleton acts a ih =>
    obtain ⟨h1, h2, h3⟩ := ih (fun b hb => hc b (List.mem_append_left _ hb))
    have ha := hc a (List.mem_append_right _ (List.mem_singleton.mpr rfl))
    rw [show (State.init sz sched direct).run (acts ++ [a]) = ((State.init sz sched direct).run acts).step a by
      unfold State.run; rw [List.foldl_append]; rfl]
    generalize (State.init sz sched direct).run acts = s at h1 h2 h3 ⊢
    cases a with
    | commit => exact absurd rfl ha
    | complete k =>
      refine ⟨?_, ?_, h3⟩
      · show (s.vec.complete k).sched = sched
        unfold Vec.complete; split <;> exact h1
      · show (s.vec.complete k).committed = false
        unfold Vec.complete; split <;> exact h2
    | call j =>
      refine ⟨h1, h2, fun c hmem => ?_⟩
      rcases List.mem_append.mp hmem with hmem | hmem
      · exact h3 c hmem
      · rw [List.mem_singleton.mp hmem]
        exact ⟨by simp, by simp⟩
    | advance n =>
      unfold State.step
      dsimp only
      cases hn : s.calls[n]? with
      | none => exact ⟨h1, h2, h3⟩
      | some c =>
        have hcc := h3 c (List.mem_of_getElem? hn)
        have key : (next s.vec c.job c.pc).1.sched = sched ∧ (next s.vec c.job c.pc).1.committed = false ∧
            thrown sched (⟨c.job, (next s.vec c.job c.pc).2⟩ : Call sz) := by
          obtain ⟨j, pc⟩ := c
          unfold thrown at hcc ⊢
          cases j <;> cases pc <;> simp_all [next] <;> split <;> simp_all
        refine ⟨key.1, key.2.1, fun d hd => ?_⟩
        rcases List.mem_or_eq_of_mem_set hd with hd | rfl
        · exact h3 d hd
        · exact key.2.2

/-- **C58, exceptions**: in all interleavings, before `commit`, a call fails exactly if it is `async_push_back` on a vector without
scheduler. -/
theorem C58_throws_partial (sched direct : Bool) (acts : List (Act sz)) (hc : Spec.NoCommit acts) :
    ∀ c ∈ ((State.init sz sched direct).run acts).calls, Spec.ended c = true →
      (c.pc = .threw ↔ sched = false ∧ ∃ x, c.job = .asyncPush x) := by
  intro c hmem hend
  obtain ⟨h1, h2⟩ := (thrown_run sched direct acts hc).2.2 c hmem
  refine ⟨h1, fun ⟨hs, x, hx⟩ => (h2 x hx ?_).mpr hs⟩
  intro h
  rw [Spec.ended, h] at hend
  cases hend

/-! ## Non-vacuity -/

/-- Three `async_push_back` that overlap, with the writes done in another order -/
def Toy.asyncActs : List (Act 2) :=
  [.call (.asyncPush #v[1, 2]), .call (.asyncPush #v[3, 4]), .advance 1, .advance 0, .advance 1, .advance 0, .advance 0,
    .advance 1, .complete 1, .call (.asyncPush #v[5, 6]), .advance 2, .advance 2, .advance 2]

example : Spec.NoCommit Toy.asyncActs ∧ Spec.OnlyAsync Toy.asyncActs ∧
    Spec.Over ((State.init 2 true true).run Toy.asyncActs) ∧
    ((State.init 2 true true).run Toy.asyncActs).calls.filterMap Spec.position = [1, 0, 2] ∧
    ((State.init 2 true true).run Toy.asyncActs).vec.pending ≠ [] := by
  refine ⟨?_, ?_, ?_, ?_, ?_⟩
  · intro a ha
    simp only [Toy.asyncActs, List.mem_cons, List.not_mem_nil, or_false] at ha
    rcases ha with rfl | rfl | rfl | rfl | rfl | rfl | rfl | rfl | rfl | rfl | rfl | rfl | rfl <;> simp
  · intro j hj
    simp only [Toy.asyncActs, Spec.jobs, List.filterMap_cons, List.filterMap_nil, List.mem_cons, List.not_mem_nil,
      or_false] at hj
    rcases hj with rfl | rfl | rfl <;> exact ⟨_, rfl⟩
  · unfold Spec.Over; decide +kernel
  · decide +kernel
  · decide +kernel

/-- `reserve` and two `push_back`, one after the other -/
def Toy.syncActs : List (Act 2) :=
  [.call (.push #v[1, 2]), .advance 0, .advance 0, .advance 0, .call (.reserve 5), .advance 1, .advance 1,
    .call (.push #v[3, 4]), .advance 2, .advance 2, .advance 2]

example : Spec.NoCommit Toy.syncActs ∧ Spec.OnlySync Toy.syncActs ∧ Spec.OneAtATime true true Toy.syncActs ∧
    Spec.Over ((State.init 2 true true).run Toy.syncActs) ∧
    ((State.init 2 true true).run Toy.syncActs).calls.filterMap Spec.position = [0, 1] := by
  refine ⟨?_, ?_, ?_, ?_, ?_⟩
  · intro a ha
    simp only [Toy.syncActs, List.mem_cons, List.not_mem_nil, or_false] at ha
    rcases ha with rfl | rfl | rfl | rfl | rfl | rfl | rfl | rfl | rfl | rfl | rfl <;> simp
  · intro j hj
    simp only [Toy.syncActs, Spec.jobs, List.filterMap_cons, List.filterMap_nil, List.mem_cons, List.not_mem_nil,
      or_false] at hj
    rcases hj with rfl | rfl | rfl <;> simp
  · have : ∀ k ∈ List.range 12, (((State.init 2 true true).run (Toy.syncActs.take k)).calls.filter
        (fun c => !Spec.ended c)).length ≤ 1 := by decide +kernel
    intro l hl
    obtain ⟨r, hr⟩ := hl
    have hlen : l.length < 12 := by
      have := congrArg List.length hr
      rw [List.length_append] at this
      have h11 : Toy.syncActs.length = 11 := rfl
      omega
    have := this l.length (List.mem_range.mpr hlen)
    rwa [← hr, List.take_left] at this
  · unfold Spec.Over; decide +kernel
  · decide +kernel

/-- Two `push_back` that overlap: the hypotheses of `C58_push_kept_partial` -/
example : ∃ acts : List (Act 1), Spec.NoCommit acts ∧ Spec.OnlyPush acts ∧
    Spec.Over ((State.init 1 false false).run acts) ∧
    Spec.values ((State.init 1 false false).run acts).calls = [#v[7], #v[8]] ∧
    ((State.init 1 false false).run acts).vec.file = [8, 7] := by
  refine ⟨[.call (.push #v[7]), .call (.push #v[8]), .advance 0, .advance 1, .advance 0, .advance 1, .advance 1,
    .advance 0], ?_, ?_, ?_, ?_, ?_⟩
  · intro a ha
    simp only [List.mem_cons, List.not_mem_nil, or_false] at ha
    rcases ha with rfl | rfl | rfl | rfl | rfl | rfl | rfl | rfl <;> simp
  · intro j hj
    simp only [Spec.jobs, List.filterMap_cons, List.filterMap_nil, List.mem_cons, List.not_mem_nil, or_false] at hj
    rcases hj with rfl | rfl <;> exact ⟨_, rfl⟩
  · unfold Spec.Over; decide +kernel
  · decide +kernel
  · decide +kernel

/-- The hypotheses of `C58_committed_partial`, with calls after `commit` that overlap -/
example : let s := (State.init 2 true true).run Toy.syncActs
    Spec.Over s ∧ s.vec.committed = false ∧ (s.vec.sched = true ∨ s.vec.pending = []) ∧
    Spec.OnlySync (sz := 2) [.call (.push #v[9, 9]), .call (.reserve 9), .advance 4, .advance 3, .advance 4] := by
  refine ⟨by unfold Spec.Over; decide +kernel, by decide +kernel, by decide +kernel, ?_⟩
  intro j hj
  simp only [Spec.jobs, List.filterMap_cons, List.filterMap_nil, List.mem_cons, List.not_mem_nil, or_false] at hj
  rcases hj with rfl | rfl <;> simp

/-- The hypotheses of the violations -/
example : (#v[1, 2] : Val 2) ≠ #v[3, 4] ∧ 0 < 2 := by decide

/-- Without scheduler, `async_push_back` fails and `push_back` does not. -/
example : ((State.init 2 false true).run [.call (.asyncPush #v[1, 2]), .call (.push #v[3, 4]), .advance 0, .advance 1,
    .advance 1, .advance 1]).calls.map Call.pc = [.threw, .returned 0] := by decide +kernel

end Verif.Vec.Conc
