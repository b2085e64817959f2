import Verif.Vec.CommitLemmas

/-! # C88: `commit` of the on-disk vector, step by step -/

namespace Verif.Props

open Verif.Vec
open Verif.Vec.Commit

/-- **C88, scheduler, partial.** No destroyed scheduler is used, as long as no call of `push_back`, `async_push_back` or `commit` overlaps with
a call of `commit`: for any number of calls of each kind, in any interleaving of the calls of `push_back` and `async_push_back`, with any number
of calls of `commit`, when the writes are done at any time and in any order.

What is missing for the full claim: it does not hold for calls that overlap with `commit` (`C88_overlap_violated`,
`C88_two_commits_violated`). -/
theorem C88_no_fault_partial (sz : Nat) (linux sched : Bool) (acts : List (Act sz)) (h : Spec.Careful (State.init sz linux sched) acts) :
    ((State.init sz linux sched).run acts).fault = false :=
  (inv_run (inv_init linux sched) acts h).fault

/-- **C88, partial.** If only `async_push_back` was called, in any interleaving, and all calls have ended, then at the end of `commit`
the vector is committed, no write is pending, and `get` gives the value of each call at the position that the call returned. The positions
of different calls differ and are below the size.

What is missing for the full claim: calls that overlap with `commit` (`C88_overlap_violated`, `C88_hole_violated`, `C88_late_violated`), and
the calls after it (`C88_second_commit_violated`). -/
theorem C88_commit_partial (sz : Nat) (linux sched : Bool) (before after : List (Act sz)) (hb : Spec.OnlyAsync before)
    (ho : Spec.Over ((State.init sz linux sched).run before)) (ha : Spec.jobs after = []) :
    let n := ((State.init sz linux sched).run before).calls.length
    let s := (State.init sz linux sched).run (before ++ .call .commit :: after)
    s.calls[n]? = some ⟨.commit, .done⟩ →
      s.fault = false ∧ s.committed = true ∧ Spec.pending s = [] ∧
      (∀ x p, (⟨.asyncPush x, .returned p⟩ : Call sz) ∈ s.calls → p < s.size ∧ s.vec.get p = .ok x) ∧
      (∀ (i j : Nat) x y p, s.calls[i]? = some ⟨.asyncPush x, .returned p⟩ → s.calls[j]? = some ⟨.asyncPush y, .returned p⟩ → i = j) := by
  intro n s hn
  have hB := before_run (before_init linux sched) before hb
  have hP : Ph s n := by
    have := ph_run (ph_begin hB ho) after ha
    show Ph ((State.init sz linux sched).run (before ++ .call .commit :: after)) n
    rw [run_append]
    exact this
  have hV : Val' s := by
    refine val_run (val_init linux sched) _ ?_
    intro x hx
    unfold Spec.jobs at hx ha
    rw [List.filterMap_append, List.mem_append] at hx
    rcases hx with hx | hx
    · obtain ⟨y, hy⟩ := hb _ hx
      cases hy
    · rw [List.filterMap_cons] at hx
      simp only [ha] at hx
      simp at hx
  obtain ⟨hcomm, hemp⟩ := ph_at hP hn
  have hnone : ∀ r, ¬ s.Pend r := by
    rintro r ⟨k, d, hd, hr⟩
    rw [hemp k d hd] at hr
    cases hr
  refine ⟨hP.inv.fault, hcomm, ?_, ?_, ?_⟩
  · apply List.eq_nil_iff_forall_not_mem.mpr
    intro r hr
    exact hnone r ((mem_pending s r).mp hr)
  · intro x p hm
    have hlt := hV.lt _ hm p rfl
    refine ⟨hlt, ?_⟩
    rcases hV.got p x hm with h | h
    · exact (hnone _ h).elim
    · exact get_of_slot (v := s.vec) (Nat.le_of_lt hlt) hcomm h
  · intro i j x y p hi hj
    exact hV.inj i j _ _ p hi hj rfl rfl

/-- **C88, all appends, partial.** Under the same conditions, if the vector has a scheduler, which takes elements of this size, then no append has failed, and every position
below the size was returned by an append: at the end of `commit` the vector consists of exactly the values of the appends.

What is missing: as for `C88_commit_partial`. -/
theorem C88_all_partial (sz : Nat) (linux : Bool) (hs : linux = true → sz % 512 = 0) (before after : List (Act sz)) (hb : Spec.OnlyAsync before)
    (ho : Spec.Over ((State.init sz linux true).run before)) (ha : Spec.jobs after = []) :
    let n := ((State.init sz linux true).run before).calls.length
    let s := (State.init sz linux true).run (before ++ .call .commit :: after)
    s.calls[n]? = some ⟨.commit, .done⟩ →
      s.size = (Spec.jobs before).length ∧
      (∀ x, .asyncPush x ∈ Spec.jobs before → ∃ p, p < s.size ∧ s.vec.get p = .ok x) ∧
      (∀ p < s.size, ∃ x, .asyncPush x ∈ Spec.jobs before ∧ s.vec.get p = .ok x) := by
  intro n s hn
  obtain ⟨-, -, -, hget, -⟩ := C88_commit_partial sz linux true before after hb ho ha hn
  have hB := before_run (before_init linux true) before hb
  have hF := full_run (before_init linux true) (full_init linux hs) before hb
  have hV : Val' ((State.init sz linux true).run before) := by
    refine val_run (val_init linux true) _ ?_
    intro x hx
    obtain ⟨y, hy⟩ := hb _ hx
    cases hy
  have hjobs := jobs_run (before_init (sz := sz) linux true) before hb
  have hP := ph_begin hB ho
  have hsame : s.size = ((State.init sz linux true).run before).size ∧ ∀ m, m ≠ n → s.calls[m]? =
      (((State.init sz linux true).run before).step (.call .commit)).calls[m]? := by
    have := ph_same hP after ha
    have e : s = (((State.init sz linux true).run before).step (.call .commit)).run after := by
      show (State.init sz linux true).run _ = _
      rw [run_append]
      rfl
    rw [e]
    refine ⟨this.1.trans ?_, this.2⟩
    unfold State.step
    rw [if_neg (by simp [hB.inv.fault])]
  have hcall : ∀ c ∈ ((State.init sz linux true).run before).calls, c ∈ s.calls := by
    intro c hc
    obtain ⟨m, hm⟩ := List.getElem?_of_mem hc
    have hlt := (List.getElem?_eq_some_iff.mp hm).1
    refine List.mem_of_getElem? (i := m) ?_
    rw [hsame.2 m (Nat.ne_of_lt hlt)]
    unfold State.step
    rw [if_neg (by simp [hB.inv.fault])]
    show (_ ++ _)[m]? = _
    rw [List.getElem?_append_left hlt]
    exact hm
  have hmem : ∀ j, j ∈ Spec.jobs before ↔ ∃ c ∈ ((State.init sz linux true).run before).calls, c.job = j := by
    intro j
    rw [← List.mem_map, hjobs]
    simp [State.init]
  refine ⟨?_, ?_, ?_⟩
  · rw [hsame.1, size_eq hB hF hV ho, ← List.length_map (f := Call.job), hjobs]
    simp [State.init]
  · intro x hx
    obtain ⟨c, hc, hcj⟩ := (hmem _).mp hx
    obtain ⟨y, p, rfl⟩ := before_returned hB hF ho hc
    obtain rfl : y = x := by simpa using hcj
    exact ⟨p, hget y p (hcall _ hc)⟩
  · intro p hp
    rw [hsame.1] at hp
    obtain ⟨c, hc, hcp⟩ := hF.onto p hp
    obtain ⟨y, q, rfl⟩ := before_returned hB hF ho hc
    obtain rfl : q = p := by simpa [slotOf] using hcp
    exact ⟨y, (hmem _).mpr ⟨_, hc, rfl⟩, (hget y q (hcall _ hc)).2⟩

/-- **C88, ends.** At any time during such a `commit` it can end: some sequence of steps of the calls and of writes that are done ends it. It is never stuck. -/
theorem C88_ends (sz : Nat) (linux sched : Bool) (before after : List (Act sz)) (hb : Spec.OnlyAsync before)
    (ho : Spec.Over ((State.init sz linux sched).run before)) (ha : Spec.jobs after = []) :
    ∃ more : List (Act sz), Spec.jobs more = [] ∧
      ((State.init sz linux sched).run (before ++ .call .commit :: (after ++ more))).calls[((State.init sz linux sched).run before).calls.length]? =
        some ⟨.commit, .done⟩ := by
  have hB := before_run (before_init linux sched) before hb
  obtain ⟨more, h1, h2⟩ := canEnd (ph_run (ph_begin hB ho) after ha)
  refine ⟨more, h1, ?_⟩
  rw [run_append]
  show (((((State.init sz linux sched).run before).step (.call .commit))).run (after ++ more)).calls[_]? = _
  rw [run_append]
  exact h2

/-! ## Non-vacuity -/

/-- A value of one byte, for the thread pool; the Linux scheduler takes only multiples of 512 bytes. -/
private def b (x : UInt8) : Val 1 := #v[x]

/-- Two calls that overlap; the one that begins first has the second position. -/
private def two {sz : Nat} (x y : Val sz) : List (Act sz) :=
  [.call (.asyncPush x), .call (.asyncPush y), .advance 0, .advance 1, .advance 1, .advance 0, .advance 0, .advance 1, .advance 0, .advance 1]

/-- The steps of `commit`, which must wait, while the write that was submitted last is done first -/
private def waits {sz : Nat} : List (Act sz) :=
  [.advance 2, .advance 2, .complete 0 1, .advance 2, .complete 0 0, .advance 2, .advance 2, .advance 2, .advance 2, .advance 2]

example (sz : Nat) (x y : Val sz) : Spec.OnlyAsync (two x y) := by
  intro j hj
  simp [two, Spec.jobs] at hj
  rcases hj with rfl | rfl <;> exact ⟨_, rfl⟩
example : Spec.Over ((State.init 1 false true).run (two (b 7) (b 8))) := by unfold Spec.Over; decide +kernel
example : Spec.jobs (waits : List (Act 1)) = [] := by decide +kernel
example : ((State.init 1 false true).run (two (b 7) (b 8) ++ .call .commit :: waits)).calls =
    [⟨.asyncPush (b 7), .returned 1⟩, ⟨.asyncPush (b 8), .returned 0⟩, ⟨.commit, .done⟩] := by decide +kernel
example : ((State.init 1 false true).run (two (b 7) (b 8) ++ .call .commit :: waits)).vec.get 1 = .ok (b 7) := by decide +kernel
/-- Before: one write is pending, and `commit` waits. -/
example : ((State.init 1 false true).run (two (b 7) (b 8) ++ .call .commit :: waits.take 4)).calls[2]? = some ⟨.commit, .waiting 0⟩ ∧
    Spec.pending ((State.init 1 false true).run (two (b 7) (b 8) ++ .call .commit :: waits.take 4)) = [(1, b 7)] := by decide +kernel
/-- With the Linux scheduler -/
example (x y : Val 512) : ((State.init 512 true true).run (two x y ++ .call .commit :: waits)).calls =
    [⟨.asyncPush x, .returned 1⟩, ⟨.asyncPush y, .returned 0⟩, ⟨.commit, .done⟩] := by
  simp [State.run, State.step, State.init, next, State.use, two, waits]

/-- Careful runs with two calls of `commit` and calls between them exist. -/
private def careful : List (Act 1) :=
  [.call (.asyncPush (b 7)), .advance 0, .advance 0, .advance 0, .advance 0, .call .commit, .advance 1, .complete 0 0, .advance 1, .advance 1,
    .advance 1, .advance 1, .advance 1, .call (.asyncPush (b 8)), .advance 2, .advance 2, .advance 2, .advance 2, .call .commit]

example : Spec.Careful (State.init 1 false true) careful := careful_of _ _ (by decide +kernel)
example : ((State.init 1 false true).run careful).calls =
    [⟨.asyncPush (b 7), .returned 0⟩, ⟨.commit, .done⟩, ⟨.asyncPush (b 8), .returned 1⟩, ⟨.commit, .begun⟩] := by decide +kernel

/-! ## What does not hold -/

/-- **C88 fails when an append overlaps with `commit`.** An `async_push_back` obtains the pointer to the scheduler; then `commit` destroys this scheduler; then
the append uses it. For all values, with both kinds of schedulers. -/
theorem C88_overlap_violated (sz : Nat) (linux : Bool) (x : Val sz) :
    ((State.init sz linux true).run [.call (.asyncPush x), .advance 0, .advance 0, .advance 0, .call .commit, .advance 1, .advance 1, .advance 1,
      .advance 1, .advance 1, .advance 1, .advance 0]).fault = true := by
  simp [State.run, State.step, State.init, next, State.use]

/-- **C88 fails for two calls of `commit` that overlap**: the second waits for the completions of a scheduler that the first has destroyed. -/
theorem C88_two_commits_violated (sz : Nat) (linux : Bool) :
    ((State.init sz linux true).run [.call .commit, .call .commit, .advance 0, .advance 1, .advance 0, .advance 0, .advance 0, .advance 0,
      .advance 1]).fault = true := by
  simp [State.run, State.step, State.init, next, State.use]

/-- **C88 fails: a hole.** With the Linux scheduler an append that overlaps with `commit` throws an exception after it has taken a position: at the end the size is
two, nothing is pending, the position of the append was never written, and `get` gives zeros for it. -/
theorem C88_hole_violated (sz : Nat) (hs : sz % 512 = 0) (x y : Val sz) :
    let s := (State.init sz true true).run [.call (.asyncPush x), .advance 0, .advance 0, .call (.asyncPush y), .advance 1, .advance 1,
      .advance 1, .advance 1, .advance 0, .call .commit, .advance 2, .advance 2, .advance 0, .complete 0 0, .advance 2, .advance 2,
      .advance 2, .advance 2, .advance 2]
    s.fault = false ∧ s.calls = [⟨.asyncPush x, .threw⟩, ⟨.asyncPush y, .returned 1⟩, ⟨.commit, .done⟩] ∧ s.size = 2 ∧
    Spec.pending s = [] ∧ s.vec.get 0 = .ok (Vector.replicate sz 0) := by
  refine ⟨?_, ?_, ?_, ?_, ?_⟩
  · simp [State.run, State.step, State.init, next, State.use, hs]
  · simp [State.run, State.step, State.init, next, State.use, hs]
  · simp [State.run, State.step, State.init, next, State.use, hs]
  · simp [State.run, State.step, State.init, next, State.use, hs, Spec.pending]
  · apply get_of_slot
    · exact Nat.zero_le _
    · simp [State.run, State.step, State.init, next, State.use, hs, State.vec]
    · intro k hk
      simp [State.run, State.step, State.init, next, State.use, hs, State.vec, writeReq, writeBytes]
      rw [List.getElem?_append_left (by simpa using hk)]
      simp [hk]

/-- **C88 fails: a late write.** The write of an append that overlaps with `commit` can be pending when `commit` has ended and the vector is
committed: `get` throws, because the file is too short. With both kinds of schedulers. -/
theorem C88_late_violated (sz : Nat) (hs : sz % 512 = 0) (hz : 0 < sz) (linux : Bool) (x : Val sz) :
    let s := (State.init sz linux true).run [.call (.asyncPush x), .advance 0, .advance 0, .call .commit, .advance 1, .advance 1, .advance 1, .advance 1,
      .advance 1, .advance 1, .advance 0, .advance 0]
    s.fault = false ∧ s.calls = [⟨.asyncPush x, .returned 0⟩, ⟨.commit, .done⟩] ∧ s.committed = true ∧
    Spec.pending s = [(0, x)] ∧ s.vec.get 0 = .error .runtimeError := by
  have hz' : ¬ 0 = sz := by omega
  simp [State.run, State.step, State.init, next, State.use, hs, Spec.pending, State.vec, Vec.get, hz']

/-- **C88 fails for a second `commit`.** `async_push_back` does not test the flag, so that values can be appended to a committed vector; a second `commit`, which overlaps with
nothing, ends without waiting for their writes. -/
theorem C88_second_commit_violated (sz : Nat) (hs : sz % 512 = 0) (hz : 0 < sz) (linux : Bool) (x : Val sz) :
    let s := (State.init sz linux true).run [.call .commit, .advance 0, .advance 0, .advance 0, .advance 0, .advance 0, .advance 0,
      .call (.asyncPush x), .advance 1, .advance 1, .advance 1, .advance 1, .call .commit, .advance 2, .advance 2]
    s.fault = false ∧ s.calls = [⟨.commit, .done⟩, ⟨.asyncPush x, .returned 0⟩, ⟨.commit, .done⟩] ∧
    Spec.pending s = [(0, x)] ∧ s.vec.get 0 = .error .runtimeError := by
  have hz' : ¬ 0 = sz := by omega
  simp [State.run, State.step, State.init, next, State.use, hs, Spec.pending, State.vec, Vec.get, hz']

example : (512 : Nat) % 512 = 0 ∧ 0 < (512 : Nat) := by decide

end Verif.Props
