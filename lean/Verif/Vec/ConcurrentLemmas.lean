import Verif.Vec.ConcurrentSpec
import Verif.Vec.Lemmas
import Mathlib.Data.List.Induction
import Mathlib.Data.List.Basic

/-! # Helper lemmas for concurrent appends -/

namespace Verif.Vec.Conc

open Verif Verif.Vec

variable {sz : Nat}

/-! ## Lists -/

theorem filterMap_set_eq {α β : Type} (f : α → Option β) {l : List α} {n : Nat} {c c' : α}
    (h : l[n]? = some c) (hf : f c' = f c) : (l.set n c').filterMap f = l.filterMap f := by
  induction l generalizing n with
  | nil => rfl
  | cons a l ih =>
    cases n with
    | zero =>
      simp only [List.getElem?_cons_zero, Option.some.injEq] at h
      subst h
      simp [List.filterMap_cons, hf]
    | succ n =>
      simp only [List.getElem?_cons_succ] at h
      simp [List.filterMap_cons, ih h]

theorem filterMap_set_perm {α β : Type} (f : α → Option β) {l : List α} {n : Nat} {c c' : α} {y : β}
    (h : l[n]? = some c) (hc : f c = none) (hc' : f c' = some y) :
    ((l.set n c').filterMap f).Perm (l.filterMap f ++ [y]) := by
  induction l generalizing n with
  | nil => simp at h
  | cons a l ih =>
    cases n with
    | zero =>
      simp only [List.getElem?_cons_zero, Option.some.injEq] at h
      subst h
      simp only [List.set_cons_zero, List.filterMap_cons, hc, hc']
      exact (List.perm_append_singleton y _).symm
    | succ n =>
      simp only [List.getElem?_cons_succ] at h
      simp only [List.set_cons_succ, List.filterMap_cons]
      cases f a with
      | none => exact ih h
      | some b => exact (ih h).cons b

theorem set_same {α : Type} {l : List α} {n : Nat} {c : α} (h : l[n]? = some c) : l.set n c = l := by
  apply List.ext_getElem?
  intro m
  rw [List.getElem?_set]
  by_cases hm : n = m
  · subst hm
    rw [if_pos rfl, if_pos (List.getElem?_eq_some_iff.mp h).1, h]
  · rw [if_neg hm]

theorem getElem?_set_cases {α : Type} {l : List α} {n m : Nat} {c d : α}
    (h : (l.set n c)[m]? = some d) : (m = n ∧ d = c) ∨ (m ≠ n ∧ l[m]? = some d) := by
  rw [List.getElem?_set] at h
  by_cases hm : n = m
  · subst hm
    simp only [if_true] at h
    split at h
    · left; exact ⟨rfl, (Option.some.inj h).symm⟩
    · cases h
  · simp only [hm, if_false] at h
    exact .inr ⟨fun e => hm e.symm, h⟩

theorem getElem?_append_cases {α : Type} {l : List α} {c d : α} {m : Nat}
    (h : (l ++ [c])[m]? = some d) : l[m]? = some d ∨ d = c := by
  rcases Nat.lt_or_ge m l.length with hm | hm
  · rw [List.getElem?_append_left hm] at h; exact .inl h
  · rw [List.getElem?_append_right hm] at h
    right
    cases hk : m - l.length with
    | zero => rw [hk] at h; simpa using h.symm
    | succ k => rw [hk] at h; simp at h

/-! ## Positions -/

/-- The position of a call, returned or not -/
def slotOf (c : Call sz) : Option Nat :=
  match c.pc with
  | .taken p | .returned p => some p
  | _ => none

theorem complete_size (v : Vec sz) (k : Nat) : (v.complete k).size = v.size := by
  unfold Vec.complete; split <;> rfl

theorem commit_size (v : Vec sz) : v.commit.size = v.size := by
  unfold Vec.commit Vec.wait; split
  · rfl
  · split <;> rfl

theorem step_perm {s : State sz} (h : (s.calls.filterMap slotOf).Perm (List.range s.vec.size))
    (a : Act sz) : ((s.step a).calls.filterMap slotOf).Perm (List.range (s.step a).vec.size) := by
  cases a with
  | call j => simpa [State.step, List.filterMap_cons, slotOf] using h
  | complete k => simpa [State.step, complete_size] using h
  | commit => simpa [State.step, commit_size] using h
  | advance n =>
    simp only [State.step]
    cases hc : s.calls[n]? with
    | none => exact h
    | some c =>
      obtain ⟨j, pc⟩ := c
      have heq : ∀ c', slotOf c' = slotOf ⟨j, pc⟩ →
          ((s.calls.set n c').filterMap slotOf).Perm (List.range s.vec.size) := fun c' hc' => by
        rw [filterMap_set_eq slotOf hc hc']; exact h
      have hnew : ∀ j', slotOf ⟨j, pc⟩ = none →
          ((s.calls.set n ⟨j', .taken s.vec.size⟩).filterMap slotOf).Perm
            (List.range (s.vec.size + 1)) := fun j' hn => by
        rw [List.range_succ]
        exact (filterMap_set_perm slotOf hc hn rfl).trans (h.append_right _)
      cases j <;> cases pc <;> simp only [next]
      all_goals first
        | exact heq _ rfl
        | exact hnew _ rfl
        | (split <;> exact heq _ rfl)

theorem run_perm (sched direct : Bool) (acts : List (Act sz)) :
    (((State.init sz sched direct).run acts).calls.filterMap slotOf).Perm
      (List.range ((State.init sz sched direct).run acts).vec.size) := by
  induction acts using List.reverseRecOn with
  | nil => simp [State.run, State.init, Vec.open]
  | append_singleton acts a ih =>
    rw [State.run, List.foldl_append]
    exact step_perm ih a

theorem position_over {s : State sz} (h : Spec.Over s) :
    s.calls.filterMap Spec.position = s.calls.filterMap slotOf := by
  apply List.filterMap_congr
  intro c hc
  have := h c hc
  unfold Spec.ended at this
  unfold Spec.position slotOf
  cases hp : c.pc <;> simp [hp] at this ⊢

theorem jobs_append (a b : List (Act sz)) : Spec.jobs (a ++ b) = Spec.jobs a ++ Spec.jobs b := by
  simp [Spec.jobs]

/-- The jobs of the calls -/
theorem calls_jobs (sched direct : Bool) (acts : List (Act sz)) :
    ((State.init sz sched direct).run acts).calls.map (·.job) = Spec.jobs acts := by
  induction acts using List.reverseRecOn with
  | nil => rfl
  | append_singleton acts a ih =>
    simp only [State.run] at ih ⊢
    rw [jobs_append, ← ih, List.foldl_append]
    generalize acts.foldl State.step (State.init sz sched direct) = s
    simp only [List.foldl_cons, List.foldl_nil]
    cases a with
    | call j => simp [State.step, Spec.jobs]
    | complete k => simp [State.step, Spec.jobs]
    | commit => simp [State.step, Spec.jobs]
    | advance n =>
      simp only [State.step, Spec.jobs, List.filterMap_cons, List.filterMap_nil, List.append_nil]
      cases hc : s.calls[n]? with
      | none => rfl
      | some c =>
        simp only [List.map_set]
        exact set_same (by rw [List.getElem?_map, hc]; rfl)

/-! ## Asynchronous appends -/

/-- `acc` are the values of the positions given out. -/
structure AInv (s : State sz) (acc : List (Val sz)) : Prop where
  len : s.vec.size = acc.length
  sched : s.vec.sched = true
  comm : s.vec.committed = false
  only : ∀ c ∈ s.calls, ∃ x, c.job = .asyncPush x
  val : ∀ c ∈ s.calls, ∀ p x, slotOf c = some p → Spec.value c = some x → acc[p]? = some x
  pend : ∀ r ∈ s.vec.pending, acc[r.1]? = some r.2
  slot : ∀ c ∈ s.calls, ∀ p x, Spec.position c = some p → Spec.value c = some x →
    (p, x) ∈ s.vec.pending ∨ Slot s.vec.file p x

theorem position_slotOf {c : Call sz} {p : Nat} (h : Spec.position c = some p) : slotOf c = some p := by
  unfold Spec.position at h
  unfold slotOf
  cases hp : c.pc <;> simp [hp] at h ⊢
  exact h

theorem ainv_step {s : State sz} {acc : List (Val sz)} (h : AInv s acc) (a : Act sz) (hc : a ≠ .commit)
    (ha : ∀ j, a = .call j → ∃ x, j = .asyncPush x) : ∃ acc', AInv (s.step a) acc' := by
  cases a with
  | commit => exact absurd rfl hc
  | call j =>
    obtain ⟨x, rfl⟩ := ha j rfl
    refine ⟨acc, h.len, h.sched, h.comm, ?_, ?_, h.pend, ?_⟩
    · intro c hc
      simp only [State.step, List.mem_append, List.mem_singleton] at hc
      rcases hc with hc | rfl
      · exact h.only c hc
      · exact ⟨x, rfl⟩
    · intro c hc p y hp hy
      simp only [State.step, List.mem_append, List.mem_singleton] at hc
      rcases hc with hc | rfl
      · exact h.val c hc p y hp hy
      · simp [slotOf] at hp
    · intro c hc p y hp hy
      simp only [State.step, List.mem_append, List.mem_singleton] at hc
      rcases hc with hc | rfl
      · exact h.slot c hc p y hp hy
      · simp [Spec.position] at hp
  | complete k =>
    refine ⟨acc, ?_, ?_, ?_, h.only, h.val, ?_, ?_⟩
    · show (s.vec.complete k).size = _
      rw [complete_size]; exact h.len
    · exact (complete_flags s.vec k).2.trans h.sched
    · exact (complete_flags s.vec k).1.trans h.comm
    · intro r hr
      simp only [State.step, Vec.complete] at hr
      split at hr
      · exact h.pend r hr
      · exact h.pend r (List.mem_of_mem_eraseIdx hr)
    · intro c hc p x hp hx
      simp only [State.step, Vec.complete]
      have h1 := h.slot c hc p x hp hx
      have h2 := h.val c hc p x (position_slotOf hp) hx
      split
      · exact h1
      · rename_i r hr
        rcases h1 with h1 | h1
        · rcases mem_eraseIdx_or hr h1 with h3 | h3
          · exact .inl h3
          · exact .inr (slot_writeReq (h.pend r (List.mem_of_getElem? hr)) h2 (.inr h3.symm))
        · exact .inr (slot_writeReq (h.pend r (List.mem_of_getElem? hr)) h2 (.inl h1))
  | advance n =>
    simp only [State.step]
    cases hc : s.calls[n]? with
    | none => exact ⟨acc, h⟩
    | some c =>
      have hmem := List.mem_of_getElem? hc
      obtain ⟨j, pc⟩ := c
      obtain ⟨x, hx⟩ := h.only _ hmem
      simp only at hx
      subst hx
      -- a step which changes nothing but the point of the call
      have hidle : ∀ pc', slotOf ⟨Job.asyncPush x, pc'⟩ = none →
          ∃ acc', AInv ⟨s.vec, s.calls.set n ⟨.asyncPush x, pc'⟩⟩ acc' := by
        intro pc' hpc
        refine ⟨acc, h.len, h.sched, h.comm, ?_, ?_, h.pend, ?_⟩
        · intro c hc
          rcases List.mem_or_eq_of_mem_set hc with hc | rfl
          · exact h.only c hc
          · exact ⟨x, rfl⟩
        · intro c hc p y hp hy
          rcases List.mem_or_eq_of_mem_set hc with hc | rfl
          · exact h.val c hc p y hp hy
          · rw [hpc] at hp; cases hp
        · intro c hc p y hp hy
          rcases List.mem_or_eq_of_mem_set hc with hc | rfl
          · exact h.slot c hc p y hp hy
          · rw [position_slotOf hp] at hpc; cases hpc
      have hself : ∃ acc', AInv ⟨s.vec, s.calls.set n ⟨.asyncPush x, pc⟩⟩ acc' := by
        have : s.calls.set n ⟨.asyncPush x, pc⟩ = s.calls := set_same hc
        rw [this]
        exact ⟨acc, h⟩
      cases pc with
      | begun =>
        simp only [next, h.sched, if_true]
        exact hidle _ rfl
      | checked =>
        simp only [next]
        refine ⟨acc ++ [x], by simp [h.len], h.sched, h.comm, ?_, ?_, ?_, ?_⟩
        · intro c hc
          rcases List.mem_or_eq_of_mem_set hc with hc | rfl
          · exact h.only c hc
          · exact ⟨x, rfl⟩
        · intro c hc p y hp hy
          rcases List.mem_or_eq_of_mem_set hc with hc | rfl
          · have := h.val c hc p y hp hy
            rw [List.getElem?_append_left (List.getElem?_eq_some_iff.mp this).1]
            exact this
          · simp only [slotOf, Option.some.injEq] at hp
            simp only [Spec.value, Option.some.injEq] at hy
            subst hp hy
            rw [h.len]; simp
        · intro r hr
          have := h.pend r hr
          rw [List.getElem?_append_left (List.getElem?_eq_some_iff.mp this).1]
          exact this
        · intro c hc p y hp hy
          rcases List.mem_or_eq_of_mem_set hc with hc | rfl
          · exact h.slot c hc p y hp hy
          · simp [Spec.position] at hp
      | taken p =>
        simp only [next]
        have hp : acc[p]? = some x := h.val _ hmem p x rfl rfl
        refine ⟨acc, h.len, h.sched, h.comm, ?_, ?_, ?_, ?_⟩
        · intro c hc
          rcases List.mem_or_eq_of_mem_set hc with hc | rfl
          · exact h.only c hc
          · exact ⟨x, rfl⟩
        · intro c hc q y hq hy
          rcases List.mem_or_eq_of_mem_set hc with hc | rfl
          · exact h.val c hc q y hq hy
          · simp only [slotOf, Option.some.injEq] at hq
            simp only [Spec.value, Option.some.injEq] at hy
            subst hq hy
            exact hp
        · intro r hr
          rw [List.mem_append, List.mem_singleton] at hr
          rcases hr with hr | rfl
          · exact h.pend r hr
          · exact hp
        · intro c hc q y hq hy
          rw [List.mem_append, List.mem_singleton]
          rcases List.mem_or_eq_of_mem_set hc with hc | rfl
          · rcases h.slot c hc q y hq hy with h1 | h1
            · exact .inl (.inl h1)
            · exact .inr h1
          · simp only [Spec.position, Option.some.injEq] at hq
            simp only [Spec.value, Option.some.injEq] at hy
            subst hq hy
            exact .inl (.inr rfl)
      | returned p => exact hself
      | done => exact hself
      | threw => exact hself

theorem ainv_run (direct : Bool) (acts : List (Act sz)) (hc : Spec.NoCommit acts)
    (ha : Spec.OnlyAsync acts) : ∃ acc, AInv ((State.init sz true direct).run acts) acc := by
  induction acts using List.reverseRecOn with
  | nil =>
    exact ⟨[], rfl, rfl, rfl, by simp [State.run, State.init], by simp [State.run, State.init],
      by simp [State.run, State.init, Vec.open], by simp [State.run, State.init]⟩
  | append_singleton acts a ih =>
    obtain ⟨acc, h⟩ := ih (fun b hb => hc b (List.mem_append_left _ hb))
      (fun j hj => ha j (by rw [jobs_append]; exact List.mem_append_left _ hj))
    rw [State.run, List.foldl_append]
    refine ainv_step h a (hc a (by simp)) ?_
    rintro j rfl
    exact ha j (by rw [jobs_append]; simp [Spec.jobs])

theorem AInv.get {s : State sz} {acc : List (Val sz)} (h : AInv s acc) (c : Call sz) (hc : c ∈ s.calls)
    (p : Nat) (x : Val sz) (hp : Spec.position c = some p) (hx : Spec.value c = some x) :
    s.vec.commit.get p = .ok x := by
  have h2 := h.val c hc p x (position_slotOf hp) hx
  have hlt := (List.getElem?_eq_some_iff.mp h2).1
  refine get_of_slot ?_ (commit_committed _) ?_
  · rw [commit_size, h.len]; omega
  · simp only [Vec.commit, h.comm, h.sched, Vec.wait, Bool.false_eq_true, if_false, if_true]
    exact slot_foldl h2 _ _ h.pend (h.slot c hc p x hp hx)

/-! ## Synchronous appends -/

/-- `W` is what is in the file. -/
structure WInv (s : State sz) (W : List (Val sz)) : Prop where
  off : s.vec.offset = W.length * sz
  slots : ∀ (i : Nat) x, W[i]? = some x → Slot s.vec.file i x
  comm : s.vec.committed = false
  pend : s.vec.pending = []

theorem WInv.write {v : Vec sz} {cs cs' : List (Call sz)} {W : List (Val sz)} (h : WInv ⟨v, cs⟩ W)
    (x : Val sz) :
    WInv ⟨{ v with file := writeBytes v.file v.offset x.toList, offset := v.offset + sz }, cs'⟩
      (W ++ [x]) := by
  have hoff : v.offset = W.length * sz := h.off
  refine ⟨by simp [hoff, Nat.add_mul], ?_, h.comm, h.pend⟩
  intro i y hy
  show Slot (writeBytes v.file v.offset x.toList) i y
  rw [hoff]
  rcases Nat.lt_or_ge i W.length with hi | hi
  · rw [List.getElem?_append_left hi] at hy
    exact slot_write_ne x (Nat.ne_of_lt hi) (h.slots i y hy)
  · rw [List.getElem?_append_right hi] at hy
    cases hk : i - W.length with
    | zero =>
      rw [hk] at hy
      simp only [List.getElem?_cons_zero, Option.some.injEq] at hy
      have : i = W.length := by omega
      subst hy this
      exact slot_write_self _ _ _
    | succ k => rw [hk] at hy; simp at hy

theorem WInv.get {s : State sz} {W : List (Val sz)} (h : WInv s W) {i : Nat} {x : Val sz}
    (hi : W[i]? = some x) (hs : i ≤ s.vec.size) : s.vec.commit.get i = .ok x := by
  refine get_of_slot ?_ (commit_committed _) ?_
  · rw [commit_size]; exact hs
  · have := h.slots i x hi
    unfold Vec.commit
    rw [if_neg (by simp [h.comm])]
    cases s.vec.sched
    · exact this
    · simpa [Vec.wait, h.pend] using this

/-- The value of a call that has returned -/
def out (c : Call sz) : Option (Val sz) := if (Spec.position c).isSome then Spec.value c else none

/-- Whatever the order, each value is written once. -/
structure PInv (s : State sz) (W : List (Val sz)) : Prop where
  w : WInv s W
  only : ∀ c ∈ s.calls, ∃ x, c.job = .push x
  perm : W.Perm (s.calls.filterMap out)

theorem pinv_step {s : State sz} {W : List (Val sz)} (h : PInv s W) (a : Act sz) (hc : a ≠ .commit)
    (ha : ∀ j, a = .call j → ∃ x, j = .push x) : ∃ W', PInv (s.step a) W' := by
  cases a with
  | commit => exact absurd rfl hc
  | call j =>
    obtain ⟨x, rfl⟩ := ha j rfl
    refine ⟨W, ⟨h.w.off, h.w.slots, h.w.comm, h.w.pend⟩, ?_, ?_⟩
    · intro c hc
      simp only [State.step, List.mem_append, List.mem_singleton] at hc
      rcases hc with hc | rfl
      · exact h.only c hc
      · exact ⟨x, rfl⟩
    · simpa [State.step, List.filterMap_cons, out, Spec.position] using h.perm
  | complete k =>
    have hp := h.w.pend
    have : s.vec.complete k = s.vec := by simp [Vec.complete, hp]
    refine ⟨W, ?_, h.only, h.perm⟩
    simp only [State.step, this]
    exact h.w
  | advance n =>
    simp only [State.step]
    cases hc : s.calls[n]? with
    | none => exact ⟨W, h⟩
    | some c =>
      have hmem := List.mem_of_getElem? hc
      obtain ⟨j, pc⟩ := c
      obtain ⟨x, hx⟩ := h.only _ hmem
      simp only at hx
      subst hx
      have honly : ∀ pc', ∀ c ∈ s.calls.set n ⟨.push x, pc'⟩, ∃ x, c.job = .push x := by
        intro pc' c hc
        rcases List.mem_or_eq_of_mem_set hc with hc | rfl
        · exact h.only c hc
        · exact ⟨x, rfl⟩
      have hsame : ∀ (v : Vec sz) pc', WInv ⟨v, s.calls⟩ W → out (sz := sz) ⟨.push x, pc'⟩ = out ⟨.push x, pc⟩ →
          ∃ W', PInv ⟨v, s.calls.set n ⟨.push x, pc'⟩⟩ W' := by
        intro v pc' hv ho
        refine ⟨W, ⟨hv.off, hv.slots, hv.comm, hv.pend⟩, honly _, ?_⟩
        rw [filterMap_set_eq out hc ho]
        exact h.perm
      cases pc with
      | begun =>
        simp only [next, h.w.comm, Bool.false_eq_true, if_false]
        exact hsame _ _ h.w rfl
      | checked =>
        simp only [next]
        exact hsame _ _ ⟨h.w.off, h.w.slots, h.w.comm, h.w.pend⟩ rfl
      | taken p =>
        simp only [next]
        refine ⟨W ++ [x], WInv.write (cs := s.calls) h.w x, honly _, ?_⟩
        exact (h.perm.append_right _).trans (filterMap_set_perm out hc rfl rfl).symm
      | returned p => exact hsame _ _ h.w rfl
      | done => exact hsame _ _ h.w rfl
      | threw => exact hsame _ _ h.w rfl

theorem winv_init (sched direct : Bool) : WInv (State.init sz sched direct) [] :=
  ⟨by simp [State.init, Vec.open], by simp, rfl, rfl⟩

theorem pinv_run (sched direct : Bool) (acts : List (Act sz)) (hc : Spec.NoCommit acts)
    (ha : Spec.OnlyPush acts) : ∃ W, PInv ((State.init sz sched direct).run acts) W := by
  induction acts using List.reverseRecOn with
  | nil => exact ⟨[], winv_init _ _, by simp [State.run, State.init], by simp [State.run, State.init]⟩
  | append_singleton acts a ih =>
    obtain ⟨W, h⟩ := ih (fun b hb => hc b (List.mem_append_left _ hb))
      (fun j hj => ha j (by rw [jobs_append]; exact List.mem_append_left _ hj))
    rw [State.run, List.foldl_append]
    refine pinv_step h a (hc a (by simp)) ?_
    rintro j rfl
    exact ha j (by rw [jobs_append]; simp [Spec.jobs])

/-! ## One call at a time -/

/-- At most one call is in progress. -/
def Alone (cs : List (Call sz)) : Prop := (cs.filter (fun c => !Spec.ended c)).length ≤ 1

theorem alone_ended {cs : List (Call sz)} (h : Alone cs) {n m : Nat} {c d : Call sz}
    (hc : cs[n]? = some c) (hd : cs[m]? = some d) (hn : Spec.ended c = false) (hm : m ≠ n) :
    Spec.ended d = true := by
  induction cs generalizing n m with
  | nil => simp at hc
  | cons a cs ih =>
    unfold Alone at h
    rw [List.filter_cons] at h
    have hnone : ∀ e : Call sz, (cs.filter (fun c => !Spec.ended c)).length = 0 → e ∈ cs →
        Spec.ended e = true := by
      intro e h0 he
      rw [List.length_eq_zero_iff, List.filter_eq_nil_iff] at h0
      simpa using h0 e he
    cases n with
    | zero =>
      simp only [List.getElem?_cons_zero, Option.some.injEq] at hc
      subst hc
      rw [hn] at h
      simp only [Bool.not_false, if_true, List.length_cons] at h
      cases m with
      | zero => exact absurd rfl hm
      | succ m =>
        simp only [List.getElem?_cons_succ] at hd
        exact hnone d (by omega) (List.mem_of_getElem? hd)
    | succ n =>
      simp only [List.getElem?_cons_succ] at hc
      cases m with
      | zero =>
        simp only [List.getElem?_cons_zero, Option.some.injEq] at hd
        subst hd
        cases ha : Spec.ended a with
        | true => rfl
        | false =>
          rw [ha] at h
          simp only [Bool.not_false, if_true, List.length_cons] at h
          have := hnone c (by omega) (List.mem_of_getElem? hc)
          rw [hn] at this; cases this
      | succ m =>
        simp only [List.getElem?_cons_succ] at hd
        refine ih ?_ hc hd (by omega)
        unfold Alone
        split at h
        · simp only [List.length_cons] at h; omega
        · exact h

/-- With one call at a time, positions and contents agree. -/
structure OInv (s : State sz) (W : List (Val sz)) : Prop where
  w : WInv s W
  only : ∀ (m : Nat) c, s.calls[m]? = some c → ∀ x, c.job ≠ .asyncPush x
  ret : ∀ (m : Nat) c, s.calls[m]? = some c → ∀ p x, Spec.position c = some p → Spec.value c = some x →
    W[p]? = some x
  tak : ∀ (m : Nat) c, s.calls[m]? = some c → ∀ p, c.pc = .taken p →
    p = W.length ∧ s.vec.size = W.length + 1
  idle : (∀ (m : Nat) c, s.calls[m]? = some c → ∀ p, c.pc ≠ .taken p) → s.vec.size = W.length
  res : ∀ (m : Nat) c, s.calls[m]? = some c → ∀ k, c.job = .reserve k → c.pc = .checked → s.vec.size < k
  noret : ∀ (m : Nat) c, s.calls[m]? = some c → ∀ k, c.job = .reserve k → slotOf c = none

theorem oinv_step {s : State sz} {W : List (Val sz)} (h : OInv s W) (hal : Alone s.calls) (a : Act sz)
    (hc : a ≠ .commit) (ha : ∀ j, a = .call j → ∀ x, j ≠ .asyncPush x) : ∃ W', OInv (s.step a) W' := by
  cases a with
  | commit => exact absurd rfl hc
  | call j =>
    have hj := ha j rfl
    refine ⟨W, ⟨h.w.off, h.w.slots, h.w.comm, h.w.pend⟩, ?_, ?_, ?_, ?_, ?_, ?_⟩
    · intro m c hm
      rcases getElem?_append_cases hm with hm | rfl
      · exact h.only m c hm
      · exact hj
    · intro m c hm p x hp hx
      rcases getElem?_append_cases hm with hm | rfl
      · exact h.ret m c hm p x hp hx
      · simp [Spec.position] at hp
    · intro m c hm p hp
      rcases getElem?_append_cases hm with hm | rfl
      · exact h.tak m c hm p hp
      · cases hp
    · intro hno
      apply h.idle
      intro m c hm
      refine hno m c ?_
      show (s.calls ++ _)[m]? = _
      rw [List.getElem?_append_left (List.getElem?_eq_some_iff.mp hm).1]
      exact hm
    · intro m c hm k hk hpc
      rcases getElem?_append_cases hm with hm | rfl
      · exact h.res m c hm k hk hpc
      · cases hpc
    · intro m c hm k hk
      rcases getElem?_append_cases hm with hm | rfl
      · exact h.noret m c hm k hk
      · rfl
  | complete k =>
    have hp := h.w.pend
    have : s.vec.complete k = s.vec := by simp [Vec.complete, hp]
    simp only [State.step, this]
    exact ⟨W, h⟩
  | advance n =>
    simp only [State.step]
    cases hc : s.calls[n]? with
    | none => exact ⟨W, h⟩
    | some c =>
      obtain ⟨j, pc⟩ := c
      have hlen := (List.getElem?_eq_some_iff.mp hc).1
      have hget : ∀ c', (s.calls.set n c')[n]? = some c' := fun c' => by simp [hlen]
      -- a step that gives and takes no position
      have hsame : ∀ (v : Vec sz) pc', WInv ⟨v, s.calls⟩ W → v.size = s.vec.size →
          (∀ p, pc ≠ .taken p) → slotOf (sz := sz) ⟨j, pc'⟩ = none →
          (∀ k, j = .reserve k → pc' = .checked → s.vec.size < k) →
          ∃ W', OInv ⟨v, s.calls.set n ⟨j, pc'⟩⟩ W' := by
        intro v pc' hv hs hpc hpc' hr
        refine ⟨W, ⟨hv.off, hv.slots, hv.comm, hv.pend⟩, ?_, ?_, ?_, ?_, ?_, ?_⟩
        · intro m c hm
          rcases getElem?_set_cases hm with ⟨_, rfl⟩ | ⟨_, hm⟩
          · exact fun x => h.only n ⟨j, pc⟩ hc x
          · exact h.only m c hm
        · intro m c hm p x hp hx
          rcases getElem?_set_cases hm with ⟨_, rfl⟩ | ⟨_, hm⟩
          · rw [position_slotOf hp] at hpc'; cases hpc'
          · exact h.ret m c hm p x hp hx
        · intro m c hm p hp
          show _ ∧ v.size = _
          rw [hs]
          rcases getElem?_set_cases hm with ⟨_, rfl⟩ | ⟨_, hm⟩
          · simp only at hp
            subst hp
            simp [slotOf] at hpc'
          · exact h.tak m c hm p hp
        · intro hno
          show v.size = _
          rw [hs]
          apply h.idle
          intro m c hm p hp
          by_cases hmn : m = n
          · subst hmn
            rw [hc] at hm
            have := Option.some.inj hm
            subst this
            exact hpc p hp
          · refine hno m c ?_ p hp
            rw [List.getElem?_set_ne (fun e => hmn e.symm)]; exact hm
        · intro m c hm k hk hpck
          show v.size < k
          rw [hs]
          rcases getElem?_set_cases hm with ⟨_, rfl⟩ | ⟨_, hm⟩
          · exact hr k hk hpck
          · exact h.res m c hm k hk hpck
        · intro m c hm k hk
          rcases getElem?_set_cases hm with ⟨_, rfl⟩ | ⟨_, hm⟩
          · exact hpc'
          · exact h.noret m c hm k hk
      have hself : ∃ W', OInv ⟨s.vec, s.calls.set n ⟨j, pc⟩⟩ W' := by
        have : s.calls.set n ⟨j, pc⟩ = s.calls := set_same hc
        rw [this]
        exact ⟨W, h⟩
      -- the other calls have ended
      have hothers : Spec.ended (sz := sz) ⟨j, pc⟩ = false → ∀ (m : Nat) d, m ≠ n →
          s.calls[m]? = some d → Spec.ended d = true := fun he m d hm hd =>
        alone_ended hal hc hd he hm
      cases j with
      | asyncPush x => exact absurd rfl (h.only n _ hc x)
      | reserve k =>
        cases pc with
        | begun =>
          simp only [next]
          split
          · rename_i hk
            exact hsame _ _ h.w rfl (by simp) rfl
              (fun k' hk' _ => by cases hk'; exact hk.2)
          · exact hsame _ _ h.w rfl (by simp) rfl (by simp)
        | checked =>
          simp only [next]
          have hlt := h.res n _ hc k rfl rfl
          refine hsame _ _ ⟨h.w.off, ?_, h.w.comm, h.w.pend⟩ rfl (by simp) rfl (by simp)
          intro i x hi
          have hsz : s.vec.size = W.length := by
            apply h.idle
            intro m c hm p hp
            by_cases hmn : m = n
            · subst hmn
              rw [hc] at hm
              have := Option.some.inj hm
              subst this
              cases hp
            · have := hothers rfl m c hmn hm
              simp [Spec.ended, hp] at this
          have := (List.getElem?_eq_some_iff.mp hi).1
          exact slot_resize (by omega) (h.w.slots i x hi)
        | taken p =>
          have := h.noret n _ hc k rfl
          simp [slotOf] at this
        | returned p => exact hself
        | done => exact hself
        | threw => exact hself
      | push x =>
        cases pc with
        | begun =>
          simp only [next, h.w.comm, Bool.false_eq_true, if_false]
          exact hsame _ _ h.w rfl (by simp) rfl (by simp)
        | checked =>
          simp only [next]
          have hsz : s.vec.size = W.length := by
            apply h.idle
            intro m c hm p hp
            by_cases hmn : m = n
            · subst hmn
              rw [hc] at hm
              have := Option.some.inj hm
              subst this
              cases hp
            · have := hothers rfl m c hmn hm
              simp [Spec.ended, hp] at this
          refine ⟨W, ⟨h.w.off, h.w.slots, h.w.comm, h.w.pend⟩, ?_, ?_, ?_, ?_, ?_, ?_⟩
          · intro m c hm
            rcases getElem?_set_cases hm with ⟨_, rfl⟩ | ⟨_, hm⟩
            · exact fun y => by simp
            · exact h.only m c hm
          · intro m c hm p y hp hy
            rcases getElem?_set_cases hm with ⟨_, rfl⟩ | ⟨_, hm⟩
            · simp [Spec.position] at hp
            · exact h.ret m c hm p y hp hy
          · intro m c hm p hp
            show p = W.length ∧ s.vec.size + 1 = W.length + 1
            rcases getElem?_set_cases hm with ⟨_, rfl⟩ | ⟨hmn, hm⟩
            · simp only [Pc.taken.injEq] at hp
              exact ⟨by omega, by omega⟩
            · have := hothers rfl m c hmn hm
              simp [Spec.ended, hp] at this
          · intro hno
            exact absurd rfl (hno n _ (hget _) _)
          · intro m c hm k hk hpck
            rcases getElem?_set_cases hm with ⟨_, rfl⟩ | ⟨hmn, hm⟩
            · cases hk
            · have := hothers rfl m c hmn hm
              simp [Spec.ended, hpck] at this
          · intro m c hm k hk
            rcases getElem?_set_cases hm with ⟨_, rfl⟩ | ⟨_, hm⟩
            · cases hk
            · exact h.noret m c hm k hk
        | taken p =>
          simp only [next]
          obtain ⟨hp, hsz⟩ := h.tak n _ hc p rfl
          refine ⟨W ++ [x], WInv.write (cs := s.calls) h.w x, ?_, ?_, ?_, ?_, ?_, ?_⟩
          · intro m c hm
            rcases getElem?_set_cases hm with ⟨_, rfl⟩ | ⟨_, hm⟩
            · exact fun y => by simp
            · exact h.only m c hm
          · intro m c hm q y hq hy
            rcases getElem?_set_cases hm with ⟨_, rfl⟩ | ⟨_, hm⟩
            · simp only [Spec.position, Option.some.injEq] at hq
              simp only [Spec.value, Option.some.injEq] at hy
              subst hq hy
              rw [hp]; simp
            · have := h.ret m c hm q y hq hy
              rw [List.getElem?_append_left (List.getElem?_eq_some_iff.mp this).1]
              exact this
          · intro m c hm q hq
            rcases getElem?_set_cases hm with ⟨_, rfl⟩ | ⟨hmn, hm⟩
            · cases hq
            · have := hothers rfl m c hmn hm
              simp [Spec.ended, hq] at this
          · intro _
            simp [hsz]
          · intro m c hm k hk hpck
            rcases getElem?_set_cases hm with ⟨_, rfl⟩ | ⟨hmn, hm⟩
            · cases hk
            · have := hothers rfl m c hmn hm
              simp [Spec.ended, hpck] at this
          · intro m c hm k hk
            rcases getElem?_set_cases hm with ⟨_, rfl⟩ | ⟨_, hm⟩
            · cases hk
            · exact h.noret m c hm k hk
        | returned p => exact hself
        | done => exact hself
        | threw => exact hself

theorem oinv_run (sched direct : Bool) (acts : List (Act sz)) (hc : Spec.NoCommit acts)
    (ha : Spec.OnlySync acts) (h1 : Spec.OneAtATime sched direct acts) :
    ∃ W, OInv ((State.init sz sched direct).run acts) W := by
  induction acts using List.reverseRecOn with
  | nil =>
    exact ⟨[], winv_init _ _, by simp [State.run, State.init], by simp [State.run, State.init],
      by simp [State.run, State.init], fun _ => rfl, by simp [State.run, State.init],
      by simp [State.run, State.init]⟩
  | append_singleton acts a ih =>
    obtain ⟨W, h⟩ := ih (fun b hb => hc b (List.mem_append_left _ hb))
      (fun j hj => ha j (by rw [jobs_append]; exact List.mem_append_left _ hj))
      (fun l hl => h1 l (hl.trans (List.prefix_append _ _)))
    have hal := h1 acts (List.prefix_append _ _)
    rw [State.run, List.foldl_append]
    refine oinv_step h hal a (hc a (by simp)) ?_
    rintro j rfl
    exact ha j (by rw [jobs_append]; simp [Spec.jobs])

end Verif.Vec.Conc
