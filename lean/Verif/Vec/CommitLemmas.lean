import Verif.Vec.Commit
import Verif.Vec.Lemmas
import Verif.Vec.ConcurrentLemmas

/-! # `commit` step by step: invariants -/

namespace Verif.Vec.Commit

open Verif.Vec.Conc (getElem?_set_cases getElem?_append_cases)

variable {sz : Nat}

/-- Scheduler `k` exists and is not destroyed. -/
def State.Alive (s : State sz) (k : Nat) : Prop := ∃ d, s.scheds[k]? = some d ∧ d.alive = true

/-- What is known of a call while no destroyed scheduler is used -/
def CallOk (s : State sz) (c : Call sz) : Prop :=
  match c.pc with
  | .checked => ∀ x, c.job = .asyncPush x → s.ptr.isSome
  | .taken _ => ∀ x, c.job = .asyncPush x → s.ptr.isSome
  | .submitting _ k => s.ptr = some k
  | .waiting k => s.ptr = some k
  | .duplicating => s.ptr.isSome
  | .replacing n => s.ptr.isSome ∧ s.ptr ≠ some n ∧ s.Alive n
  | .destroying k => s.ptr.isSome ∧ s.ptr ≠ some k ∧ s.Alive k
  | _ => True

/-- The invariant of runs in which nothing overlaps with `commit` -/
structure Inv (s : State sz) : Prop where
  fault : s.fault = false
  ptr : ∀ k, s.ptr = some k → s.Alive k
  calls : ∀ c ∈ s.calls, CallOk s c
  one : ∀ (n : Nat) c, s.calls[n]? = some c → c.job = .commit → Spec.ended c = false →
    ∀ (m : Nat) c', m ≠ n → s.calls[m]? = some c' → Spec.ended c' = true

theorem next_ended (s : State sz) (c : Call sz) (h : Spec.ended c = true) : next s c.job c.pc = (s, c.pc) := by
  obtain ⟨j, pc⟩ := c
  cases pc <;> simp [Spec.ended] at h <;> cases j <;> rfl

theorem callOk_ended (s : State sz) (c : Call sz) (h : Spec.ended c = true) : CallOk s c := by
  obtain ⟨j, pc⟩ := c
  cases pc <;> simp [Spec.ended] at h <;> trivial

theorem callOk_mono {s s' : State sz} {c : Call sz} (hp : s'.ptr = s.ptr) (ha : ∀ k, s.Alive k → s'.Alive k) (h : CallOk s c) :
    CallOk s' c := by
  obtain ⟨j, pc⟩ := c
  cases pc with
  | replacing n => exact ⟨by rw [hp]; exact h.1, by rw [hp]; exact h.2.1, ha _ h.2.2⟩
  | destroying n => exact ⟨by rw [hp]; exact h.1, by rw [hp]; exact h.2.1, ha _ h.2.2⟩
  | _ => simp only [CallOk, hp] at h ⊢ <;> exact h

theorem alive_set {s : State sz} {k : Nat} {d d' : Sched sz} (hd : s.scheds[k]? = some d) (ha : d'.alive = true) (j : Nat)
    (h : s.Alive j) : ({ s with scheds := s.scheds.set k d' } : State sz).Alive j := by
  obtain ⟨e, he, hea⟩ := h
  by_cases hjk : k = j
  · subst hjk
    refine ⟨d', ?_, ha⟩
    obtain ⟨hlt, -⟩ := List.getElem?_eq_some_iff.mp hd
    show (s.scheds.set k d')[k]? = some d'
    rw [List.getElem?_set]
    simp [hlt]
  · refine ⟨e, ?_, hea⟩
    show (s.scheds.set k d')[j]? = some e
    rw [List.getElem?_set, if_neg hjk]
    exact he

/-- What a step of call `c` leaves -/
structure NextOk (s : State sz) (c : Call sz) (s' : State sz) (pc : Pc) : Prop where
  fault : s'.fault = false
  ptr : ∀ k, s'.ptr = some k → s'.Alive k
  ok : CallOk s' ⟨c.job, pc⟩
  keep : (s'.ptr = s.ptr ∧ ∀ k, s.Alive k → s'.Alive k) ∨ (c.job = .commit ∧ Spec.ended c = false)

/-- The step of a call changes neither the pointer nor destroys a scheduler, unless the call is a `commit` in progress. -/
theorem next_ok (s : State sz) (h : Inv s) (n : Nat) (c : Call sz) (hn : s.calls[n]? = some c) :
    NextOk s c (next s c.job c.pc).1 (next s c.job c.pc).2 := by
  have hc := h.calls c (List.mem_of_getElem? hn)
  obtain ⟨j, pc⟩ := c
  have same : ∀ pc', CallOk s ⟨j, pc'⟩ → NextOk s ⟨j, pc⟩ s pc' :=
    fun pc' h' => ⟨h.fault, h.ptr, h', Or.inl ⟨rfl, fun _ h => h⟩⟩
  cases j with
  | push x =>
    cases pc with
    | begun =>
      by_cases hs : s.committed = true
      · simp only [next, hs, if_true]
        exact same .threw trivial
      · simp only [next, hs, Bool.false_eq_true, if_false]
        exact same .checked (by intro y hy; cases hy)
    | checked => exact ⟨h.fault, h.ptr, (by intro y hy; cases hy), Or.inl ⟨rfl, fun _ h => h⟩⟩
    | taken p => exact ⟨h.fault, h.ptr, trivial, Or.inl ⟨rfl, fun _ h => h⟩⟩
    | _ => exact same _ hc
  | asyncPush x =>
    cases pc with
    | begun =>
      by_cases hs : s.ptr.isSome = true
      · simp only [next, hs, if_true]
        exact same .checked (fun _ _ => hs)
      · simp only [next, hs, Bool.false_eq_true, if_false]
        exact same .threw trivial
    | checked => exact ⟨h.fault, h.ptr, hc, Or.inl ⟨rfl, fun _ h => h⟩⟩
    | taken p =>
      have hs : s.ptr.isSome := hc x rfl
      obtain ⟨k, hk⟩ := Option.isSome_iff_exists.mp hs
      simp only [next, hk]
      exact same (.submitting p k) hk
    | submitting p k =>
      have hk : s.ptr = some k := hc
      obtain ⟨d, hd, hda⟩ := h.ptr k hk
      simp only [next, State.use, hd, hda, if_true]
      by_cases hs : s.linux = true ∧ (d.stopped = true ∨ sz % 512 ≠ 0)
      · rw [if_pos hs]
        exact same .threw trivial
      · rw [if_neg hs]
        exact ⟨h.fault, fun j hj => alive_set hd rfl j (h.ptr j hj), trivial, Or.inl ⟨rfl, fun j hj => alive_set hd rfl j hj⟩⟩
    | _ => exact same _ hc
  | commit =>
    cases pc with
    | begun =>
      by_cases hs : s.committed = true
      · simp only [next, hs, if_true]
        exact same .flagging trivial
      · simp only [next, hs, Bool.false_eq_true, if_false]
        cases hk : s.ptr with
        | none => exact same .flagging trivial
        | some k => exact same (.waiting k) hk
    | waiting k =>
      have hk : s.ptr = some k := hc
      obtain ⟨d, hd, hda⟩ := h.ptr k hk
      simp only [next, State.use, hd, hda, if_true]
      refine ⟨h.fault, fun j hj => alive_set hd rfl j (h.ptr j hj), ?_, Or.inr ⟨rfl, rfl⟩⟩
      by_cases hp : d.pending = []
      · simp only [hp, if_true]
        show s.ptr.isSome
        rw [hk]; rfl
      · simp only [hp, if_false]
        exact hk
    | duplicating =>
      have hs : s.ptr.isSome := hc
      obtain ⟨k, hk⟩ := Option.isSome_iff_exists.mp hs
      obtain ⟨d, hd, hda⟩ := h.ptr k hk
      have e : next s .commit .duplicating = ({ s with scheds := s.scheds ++ [⟨true, false, []⟩] }, .replacing s.scheds.length) := by
        simp [next, State.use, hk, hd, hda]
      simp only [e]
      have hlt := (List.getElem?_eq_some_iff.mp hd).1
      refine ⟨h.fault, ?_, ⟨(by show s.ptr.isSome; rw [hk]; rfl), ?_, ⟨⟨true, false, []⟩, by simp, rfl⟩⟩, Or.inr ⟨rfl, rfl⟩⟩
      · intro j hj
        obtain ⟨e, he, hea⟩ := h.ptr j hj
        refine ⟨e, ?_, hea⟩
        show (s.scheds ++ [_])[j]? = some e
        rw [List.getElem?_append_left (List.getElem?_eq_some_iff.mp he).1]
        exact he
      · show s.ptr ≠ _
        rw [hk]
        intro e
        have := Option.some.inj e
        omega
    | replacing m =>
      obtain ⟨hs, hne, hal⟩ := hc
      obtain ⟨k, hk⟩ := Option.isSome_iff_exists.mp hs
      have hkal := h.ptr k hk
      simp only [next, hk]
      refine ⟨h.fault, ?_, ⟨rfl, ?_, hkal⟩, Or.inr ⟨rfl, rfl⟩⟩
      · intro j hj
        obtain rfl : m = j := Option.some.inj hj
        exact hal
      · intro e
        obtain rfl : m = k := Option.some.inj e
        exact hne hk
    | destroying k =>
      obtain ⟨hs, hne, d, hd, hda⟩ := hc
      have keep : ∀ d' : Sched sz, ∀ j, s.ptr = some j → ({ s with scheds := s.scheds.set k d' } : State sz).Alive j := by
        intro d' j hj
        obtain ⟨e, he, hea⟩ := h.ptr j hj
        refine ⟨e, ?_, hea⟩
        show (s.scheds.set k d')[j]? = some e
        rw [List.getElem?_set, if_neg (by rintro rfl; exact hne hj)]
        exact he
      simp only [next, State.use, hd, hda, if_true]
      by_cases hp : d.pending = []
      · rw [if_pos hp]
        exact ⟨h.fault, keep _, trivial, Or.inr ⟨rfl, rfl⟩⟩
      · rw [if_neg hp]
        exact ⟨h.fault, keep _, ⟨hs, hne, alive_set hd rfl k ⟨d, hd, hda⟩⟩, Or.inr ⟨rfl, rfl⟩⟩
    | flagging => exact ⟨h.fault, h.ptr, trivial, Or.inl ⟨rfl, fun _ h => h⟩⟩
    | _ => exact same _ hc

theorem inv_advance {s : State sz} (h : Inv s) {n : Nat} {c : Call sz} (hn : s.calls[n]? = some c) :
    Inv { (next s c.job c.pc).1 with calls := s.calls.set n ⟨c.job, (next s c.job c.pc).2⟩ } := by
  have hk := next_ok s h n c hn
  have same : Spec.ended c = true → Spec.ended (⟨c.job, (next s c.job c.pc).2⟩ : Call sz) = true := by
    intro he
    rw [next_ended s c he]
    exact he
  generalize (next s c.job c.pc).1 = s' at hk ⊢
  generalize (next s c.job c.pc).2 = pc at hk same ⊢
  refine ⟨hk.fault, fun k h' => hk.ptr k h', ?_, ?_⟩
  · intro e he
    obtain ⟨m, hm⟩ := List.getElem?_of_mem he
    rcases getElem?_set_cases hm with ⟨-, rfl⟩ | ⟨hmn, hm⟩
    · exact callOk_mono (s := s') rfl (fun _ h => h) hk.ok
    · rcases hk.keep with ⟨hp, ha⟩ | ⟨hj, hd⟩
      · exact callOk_mono (s := s) hp ha (h.calls e (List.mem_of_getElem? hm))
      · exact callOk_ended _ _ (h.one n c hn hj hd m e hmn hm)
  · intro m e hm hj hd m' e' hne hm'
    rcases getElem?_set_cases hm with ⟨rfl, rfl⟩ | ⟨hmn, hm2⟩
    · rcases getElem?_set_cases hm' with ⟨h1, -⟩ | ⟨hmn', hm3⟩
      · exact absurd h1 hne
      · refine h.one m c hn hj ?_ m' e' hne hm3
        cases he : Spec.ended c with
        | false => rfl
        | true => rw [same he] at hd; cases hd
    · rcases getElem?_set_cases hm' with ⟨rfl, rfl⟩ | ⟨hmn', hm3⟩
      · exact same (h.one m e hm2 hj hd m' c hne hn)
      · exact h.one m e hm2 hj hd m' e' hne hm3

theorem inv_step {s : State sz} (h : Inv s) (a : Act sz)
    (hc : ∀ j, a = .call j → Spec.NoneCommitting s ∧ (j = .commit → Spec.Over s)) : Inv (s.step a) := by
  unfold State.step
  rw [if_neg (by simp [h.fault])]
  cases a with
  | call j =>
    obtain ⟨hn, ho⟩ := hc j rfl
    refine ⟨h.fault, h.ptr, ?_, ?_⟩
    · intro c hcm
      rcases List.mem_append.mp hcm with h1 | h1
      · exact callOk_mono (s := s) rfl (fun _ h => h) (h.calls c h1)
      · rw [List.mem_singleton.mp h1]; trivial
    · intro n c h1 h2 h3 m c' h4 h5
      have at_end : ∀ (n : Nat) (c : Call sz), (s.calls ++ [⟨j, .begun⟩])[n]? = some c →
          s.calls[n]? = some c ∨ (n = s.calls.length ∧ c = ⟨j, .begun⟩) := by
        intro n c h
        rcases Nat.lt_or_ge n s.calls.length with hl | hl
        · rw [List.getElem?_append_left hl] at h
          exact .inl h
        · have hl' := (List.getElem?_eq_some_iff.mp h).1
          simp at hl'
          obtain rfl : n = s.calls.length := by omega
          simp at h
          exact .inr ⟨rfl, h.symm⟩
      rcases at_end n c h1 with h1 | ⟨h1, rfl⟩
      · rw [hn c (List.mem_of_getElem? h1) h2] at h3
        cases h3
      · rcases at_end m c' h5 with h5 | ⟨h5, -⟩
        · exact ho h2 c' (List.mem_of_getElem? h5)
        · omega
  | advance n =>
    simp only
    cases hn : s.calls[n]? with
    | none => exact h
    | some c => exact inv_advance h hn
  | complete k i =>
    simp only
    cases hd : s.scheds[k]? with
    | none => exact h
    | some d =>
      simp only
      cases hr : d.pending[i]? with
      | none => exact h
      | some r =>
        have ha : ∀ j, s.Alive j → ({ s with file := writeReq s.file r, scheds := s.scheds.set k { d with pending := d.pending.eraseIdx i } } : State sz).Alive j := by
          rintro j ⟨e, he, hea⟩
          by_cases hjk : k = j
          · subst hjk
            rw [hd] at he
            cases he
            refine ⟨{ d with pending := d.pending.eraseIdx i }, ?_, hea⟩
            show (s.scheds.set k _)[k]? = _
            rw [List.getElem?_set]
            simp [(List.getElem?_eq_some_iff.mp hd).1]
          · refine ⟨e, ?_, hea⟩
            show (s.scheds.set k _)[j]? = some e
            rw [List.getElem?_set, if_neg hjk]
            exact he
        exact ⟨h.fault, fun j hj => ha j (h.ptr j hj), fun c hc => callOk_mono (s := s) rfl ha (h.calls c hc), h.one⟩

theorem inv_init (linux sched : Bool) : Inv (State.init sz linux sched) := by
  refine ⟨rfl, ?_, by simp [State.init], by simp [State.init]⟩
  intro k hk
  cases sched with
  | false => simp [State.init] at hk
  | true =>
    simp [State.init] at hk
    subst hk
    exact ⟨⟨true, false, []⟩, by simp [State.init], rfl⟩

theorem run_append (s : State sz) (a b : List (Act sz)) : s.run (a ++ b) = (s.run a).run b := by
  unfold State.run
  rw [List.foldl_append]

theorem inv_run {s : State sz} (h : Inv s) (acts : List (Act sz)) (hc : Spec.Careful s acts) : Inv (s.run acts) := by
  induction acts using List.reverseRecOn with
  | nil => exact h
  | append_singleton l a ih =>
    rw [run_append]
    refine inv_step (ih ?_) a ?_
    · intro before j after e
      exact hc before j (after ++ [a]) (by rw [e]; simp)
    · rintro j rfl
      exact hc l j [] (by simp)

/-- A test for `Careful` -/
theorem careful_of (s : State sz) (acts : List (Act sz))
    (h : ∀ i < acts.length, (match acts[i]? with
      | some (.call j) => (s.run (acts.take i)).calls.all (fun c => decide (c.job ≠ .commit) || Spec.ended c) &&
          (decide (j ≠ .commit) || (s.run (acts.take i)).calls.all Spec.ended)
      | _ => true) = true) : Spec.Careful s acts := by
  rintro before j after rfl
  have := h before.length (by simp)
  simp only [List.getElem?_append_right (Nat.le_refl _), Nat.sub_self, List.getElem?_cons_zero, List.take_left,
    Bool.and_eq_true, Bool.or_eq_true, decide_eq_true_eq, List.all_eq_true] at this
  refine ⟨fun c hc hj => ?_, fun hj c hc => ?_⟩
  · rcases this.1 c hc with h1 | h1
    · exact absurd hj h1
    · exact h1
  · rcases this.2 with h1 | h1
    · exact absurd hj h1
    · exact h1 c hc

/-! ## The values -/

/-- Write `r` is submitted and not done. -/
def State.Pend (s : State sz) (r : Nat × Val sz) : Prop := ∃ (k : Nat) (d : Sched sz), s.scheds[k]? = some d ∧ r ∈ d.pending

theorem mem_pending (s : State sz) (r : Nat × Val sz) : r ∈ Spec.pending s ↔ s.Pend r := by
  unfold Spec.pending State.Pend
  rw [List.mem_flatMap]
  constructor
  · rintro ⟨d, hd, hr⟩
    obtain ⟨k, hk⟩ := List.getElem?_of_mem hd
    exact ⟨k, d, hk, hr⟩
  · rintro ⟨k, d, hk, hr⟩
    exact ⟨d, List.mem_of_getElem? hk, hr⟩

/-- The position of a call -/
def slotOf (pc : Pc) : Option Nat :=
  match pc with
  | .taken p | .submitting p _ | .returned p => some p
  | _ => none

/-- The invariant of the values, in runs without `push_back` -/
structure Val' (s : State sz) : Prop where
  nopush : ∀ c ∈ s.calls, ∀ x, c.job ≠ .push x
  lt : ∀ c ∈ s.calls, ∀ p, slotOf c.pc = some p → p < s.size
  inj : ∀ (n m : Nat) (c c' : Call sz) (p : Nat), s.calls[n]? = some c → s.calls[m]? = some c' → slotOf c.pc = some p → slotOf c'.pc = some p → n = m
  pend : ∀ r, s.Pend r → (⟨.asyncPush r.2, .returned r.1⟩ : Call sz) ∈ s.calls
  got : ∀ p x, (⟨.asyncPush x, .returned p⟩ : Call sz) ∈ s.calls → s.Pend (p, x) ∨ Slot s.file p x

theorem pend_set {s : State sz} {k : Nat} {d d' : Sched sz} (hd : s.scheds[k]? = some d) (hp : d'.pending = d.pending) (r : Nat × Val sz) :
    ({ s with scheds := s.scheds.set k d' } : State sz).Pend r ↔ s.Pend r := by
  constructor
  · rintro ⟨j, e, he, hr⟩
    rcases getElem?_set_cases he with ⟨rfl, rfl⟩ | ⟨-, he⟩
    · exact ⟨j, d, hd, by rw [← hp]; exact hr⟩
    · exact ⟨j, e, he, hr⟩
  · rintro ⟨j, e, he, hr⟩
    by_cases hjk : k = j
    · subst hjk
      rw [hd] at he
      cases he
      refine ⟨k, d', ?_, by rw [hp]; exact hr⟩
      show (s.scheds.set k d')[k]? = some d'
      rw [List.getElem?_set]
      simp [(List.getElem?_eq_some_iff.mp hd).1]
    · refine ⟨j, e, ?_, hr⟩
      show (s.scheds.set k d')[j]? = some e
      rw [List.getElem?_set, if_neg hjk]
      exact he

/-- What a step of call `c` does to the values -/
structure NextVal (s : State sz) (c : Call sz) (s' : State sz) (pc : Pc) : Prop where
  file : s'.file = s.file
  size : s.size ≤ s'.size
  /-- A position is new, or the call had it. -/
  slot : ∀ p, slotOf pc = some p → slotOf c.pc = some p ∨ (p = s.size ∧ s'.size = s.size + 1)
  /-- Writes are those from before, or that of this call, which returns. -/
  pend : ∀ r, s'.Pend r → s.Pend r ∨ (c.job = .asyncPush r.2 ∧ pc = .returned r.1)
  keep : ∀ r, s.Pend r → s'.Pend r
  ret : ∀ p x, c.job = .asyncPush x → pc = .returned p → c.pc = .returned p ∨ s'.Pend (p, x)
  stay : ∀ p, c.pc = .returned p → pc = .returned p

theorem next_val (s : State sz) (c : Call sz) (hp : ∀ x, c.job ≠ .push x) : NextVal s c (next s c.job c.pc).1 (next s c.job c.pc).2 := by
  obtain ⟨j, pc⟩ := c
  -- steps that leave file, size and writes alone, and do not give a position
  have same : ∀ (s' : State sz) pc', s'.file = s.file → s'.size = s.size → (∀ r, s'.Pend r ↔ s.Pend r) →
      (∀ p, slotOf pc' = some p → slotOf pc = some p) → (∀ p, pc' = .returned p → pc = .returned p) →
      (∀ p, pc = .returned p → pc' = .returned p) → NextVal s ⟨j, pc⟩ s' pc' :=
    fun s' pc' h1 h2 h3 h4 h5 h6 => ⟨h1, by omega, fun p hp => .inl (h4 p hp), fun r hr => .inl ((h3 r).mp hr), fun r hr => (h3 r).mpr hr,
      fun p _ _ hp => .inl (h5 p hp), h6⟩
  have idle : NextVal s ⟨j, pc⟩ s pc := same s pc rfl rfl (fun _ => Iff.rfl) (fun _ h => h) (fun _ h => h) (fun _ h => h)
  have fault : ∀ (q : Option Nat) pc', slotOf pc' = slotOf pc → (∀ p, pc' = .returned p ↔ pc = .returned p) →
      NextVal s ⟨j, pc⟩ { s with ptr := q, fault := true } pc' :=
    fun q pc' h h' => same _ pc' rfl rfl (fun _ => Iff.rfl) (fun _ hp => h ▸ hp) (fun p => (h' p).mp) (fun p => (h' p).mpr)
  cases j with
  | push x => exact absurd rfl (hp x)
  | asyncPush x =>
    cases pc with
    | begun =>
      by_cases hs : s.ptr.isSome = true
      · simp only [next, hs, if_true]
        exact same _ _ rfl rfl (fun _ => Iff.rfl) (by simp [slotOf]) (by simp) (by simp)
      · simp only [next, hs, Bool.false_eq_true, if_false]
        exact same _ _ rfl rfl (fun _ => Iff.rfl) (by simp [slotOf]) (by simp) (by simp)
    | checked =>
      exact ⟨rfl, Nat.le_succ _, fun p hp => .inr ⟨by simpa [slotOf, next] using hp.symm, rfl⟩, fun r hr => .inl hr, fun r hr => hr,
        fun p y _ hp => by simp [next] at hp, fun p hp => by cases hp⟩
    | taken p =>
      cases hk : s.ptr with
      | none =>
        simp only [next, hk]
        exact fault _ _ rfl (by simp)
      | some k =>
        simp only [next, hk]
        exact same s (.submitting p k) rfl rfl (fun _ => Iff.rfl) (by simp [slotOf]) (by simp) (by simp)
    | submitting p k =>
      simp only [next, State.use]
      cases hd : s.scheds[k]? with
      | none => exact fault _ _ rfl (by simp)
      | some d =>
        simp only
        by_cases hda : d.alive = true
        · simp only [hda, if_true]
          by_cases hs : s.linux = true ∧ (d.stopped = true ∨ sz % 512 ≠ 0)
          · rw [if_pos hs]
            exact same _ _ rfl rfl (fun _ => Iff.rfl) (by simp [slotOf]) (by simp) (by simp)
          · rw [if_neg hs]
            have hself : (s.scheds.set k ⟨true, d.stopped, d.pending ++ [(p, x)]⟩)[k]? = some ⟨true, d.stopped, d.pending ++ [(p, x)]⟩ := by
              rw [List.getElem?_set]
              simp [(List.getElem?_eq_some_iff.mp hd).1]
            refine ⟨rfl, Nat.le_refl _, fun q hq => .inl (by simpa [slotOf] using hq), ?_, ?_, ?_, fun q hq => by cases hq⟩
            · rintro r ⟨j, e, he, hr⟩
              rcases getElem?_set_cases he with ⟨rfl, rfl⟩ | ⟨-, he⟩
              · rcases List.mem_append.mp hr with hr | hr
                · exact .inl ⟨j, d, hd, hr⟩
                · rw [List.mem_singleton.mp hr]
                  exact .inr ⟨rfl, rfl⟩
              · exact .inl ⟨j, e, he, hr⟩
            · rintro r ⟨j, e, he, hr⟩
              by_cases hjk : k = j
              · subst hjk
                rw [hd] at he
                cases he
                exact ⟨k, _, hself, List.mem_append_left _ hr⟩
              · refine ⟨j, e, ?_, hr⟩
                show (s.scheds.set k _)[j]? = some e
                rw [List.getElem?_set, if_neg hjk]
                exact he
            · intro q y hy hq
              right
              simp only [Job.asyncPush.injEq, Pc.returned.injEq] at hy hq
              subst hy hq
              exact ⟨k, _, hself, List.mem_append_right _ (by simp)⟩
        · simp only [hda, Bool.false_eq_true, if_false]
          exact fault _ _ rfl (by simp)
    | _ => exact idle
  | commit =>
    cases pc with
    | begun =>
      by_cases hs : s.committed = true
      · simp only [next, hs, if_true]
        exact same _ _ rfl rfl (fun _ => Iff.rfl) (by simp [slotOf]) (by simp) (by simp)
      · simp only [next, hs, Bool.false_eq_true, if_false]
        cases hk : s.ptr with
        | none => exact same s .flagging rfl rfl (fun _ => Iff.rfl) (by simp [slotOf]) (by simp) (by simp)
        | some k => exact same s (.waiting k) rfl rfl (fun _ => Iff.rfl) (by simp [slotOf]) (by simp) (by simp)
    | waiting k =>
      simp only [next, State.use]
      cases hd : s.scheds[k]? with
      | none => exact fault _ _ rfl (by simp)
      | some d =>
        simp only
        by_cases hda : d.alive = true
        · simp only [hda, if_true]
          by_cases hpn : d.pending = []
          · simp only [hpn, if_true]
            exact same _ _ rfl rfl (fun r => pend_set hd (by simp [hpn]) r) (by simp [slotOf]) (by simp) (by simp)
          · simp only [hpn, if_false]
            exact same _ _ rfl rfl (fun r => pend_set hd (by rfl) r) (by simp [slotOf]) (by simp) (by simp)
        · simp only [hda, Bool.false_eq_true, if_false]
          exact fault _ _ rfl (by simp)
    | duplicating =>
      cases hk : s.ptr with
      | none =>
        simp only [next, hk]
        exact fault _ _ rfl (by simp)
      | some k =>
        simp only [next, State.use, hk]
        cases hd : s.scheds[k]? with
        | none => exact fault _ _ rfl (by simp)
        | some d =>
          simp only
          by_cases hda : d.alive = true
          · simp only [hda, if_true]
            refine same _ _ rfl rfl (fun r => ?_) (by simp [slotOf]) (by simp) (by simp)
            constructor
            · rintro ⟨j, e, he, hr⟩
              rcases getElem?_append_cases he with he | rfl
              · exact ⟨j, e, he, hr⟩
              · cases hr
            · rintro ⟨j, e, he, hr⟩
              refine ⟨j, e, ?_, hr⟩
              show (s.scheds ++ [_])[j]? = some e
              rw [List.getElem?_append_left (List.getElem?_eq_some_iff.mp he).1]
              exact he
          · simp only [hda, Bool.false_eq_true, if_false]
            exact fault _ _ rfl (by simp)
    | replacing m =>
      cases hk : s.ptr with
      | none =>
        simp only [next, hk]
        exact same _ _ rfl rfl (fun _ => Iff.rfl) (by simp [slotOf]) (by simp) (by simp)
      | some k =>
        simp only [next, hk]
        exact same _ _ rfl rfl (fun _ => Iff.rfl) (by simp [slotOf]) (by simp) (by simp)
    | destroying k =>
      simp only [next, State.use]
      cases hd : s.scheds[k]? with
      | none => exact fault _ _ rfl (by simp)
      | some d =>
        simp only
        by_cases hda : d.alive = true
        · simp only [hda, if_true]
          by_cases hpn : d.pending = []
          · rw [if_pos hpn]
            exact same _ _ rfl rfl (fun r => pend_set hd (by rfl) r) (by simp [slotOf]) (by simp) (by simp)
          · rw [if_neg hpn]
            exact same _ _ rfl rfl (fun r => pend_set hd (by rfl) r) (by simp [slotOf]) (by simp) (by simp)
        · simp only [hda, Bool.false_eq_true, if_false]
          exact fault _ _ rfl (by simp)
    | flagging => exact same _ _ rfl rfl (fun _ => Iff.rfl) (by simp [slotOf, next]) (by simp [next]) (by simp)
    | _ => exact idle

theorem val_advance {s : State sz} (h : Val' s) {n : Nat} {c : Call sz} (hn : s.calls[n]? = some c) :
    Val' { (next s c.job c.pc).1 with calls := s.calls.set n ⟨c.job, (next s c.job c.pc).2⟩ } := by
  have hcm := List.mem_of_getElem? hn
  have hk := next_val s c (h.nopush c hcm)
  generalize (next s c.job c.pc).1 = s' at hk ⊢
  generalize (next s c.job c.pc).2 = pc at hk ⊢
  have hself : (s.calls.set n ⟨c.job, pc⟩)[n]? = some ⟨c.job, pc⟩ := by
    rw [List.getElem?_set]
    simp [(List.getElem?_eq_some_iff.mp hn).1]
  have hother : ∀ (m : Nat) e, m ≠ n → s.calls[m]? = some e → e ∈ s.calls.set n ⟨c.job, pc⟩ := by
    intro m e hmn he
    refine List.mem_of_getElem? (i := m) ?_
    rw [List.getElem?_set, if_neg (Ne.symm hmn)]
    exact he
  -- a call that has returned is still there
  have hret : ∀ p x, (⟨.asyncPush x, .returned p⟩ : Call sz) ∈ s.calls → (⟨.asyncPush x, .returned p⟩ : Call sz) ∈ s.calls.set n ⟨c.job, pc⟩ := by
    intro p x hm
    obtain ⟨m, hm⟩ := List.getElem?_of_mem hm
    by_cases hmn : m = n
    · subst hmn
      rw [hn] at hm
      obtain rfl := Option.some.inj hm
      have := hk.stay p rfl
      subst this
      exact List.mem_of_getElem? hself
    · exact hother m _ hmn hm
  -- a position of this call is not that of another call
  have hfresh : ∀ (m : Nat) e p, m ≠ n → s.calls[m]? = some e → slotOf pc = some p → slotOf e.pc = some p → False := by
    intro m e p hmn he hp hp'
    rcases hk.slot p hp with h1 | ⟨h1, -⟩
    · exact hmn (h.inj m n e c p he hn hp' h1)
    · have := h.lt e (List.mem_of_getElem? he) p hp'
      omega
  refine ⟨?_, ?_, ?_, ?_, ?_⟩
  · intro e he x
    rcases List.mem_or_eq_of_mem_set he with he | rfl
    · exact h.nopush e he x
    · exact h.nopush c hcm x
  · intro e he p hp
    show p < s'.size
    rcases List.mem_or_eq_of_mem_set he with he | rfl
    · exact Nat.lt_of_lt_of_le (h.lt e he p hp) hk.size
    · rcases hk.slot p hp with h1 | ⟨h1, h2⟩
      · exact Nat.lt_of_lt_of_le (h.lt c hcm p h1) hk.size
      · omega
  · intro m m' e e' p hm hm' hp hp'
    rcases getElem?_set_cases hm with ⟨h1, rfl⟩ | ⟨hmn, hm⟩
    · rcases getElem?_set_cases hm' with ⟨h2, -⟩ | ⟨hmn', hm'⟩
      · omega
      · exact (hfresh m' e' p hmn' hm' hp hp').elim
    · rcases getElem?_set_cases hm' with ⟨h2, rfl⟩ | ⟨hmn', hm'⟩
      · exact (hfresh m e p hmn hm hp' hp).elim
      · exact h.inj m m' e e' p hm hm' hp hp'
  · intro r hr
    rcases hk.pend r hr with h1 | ⟨h1, h2⟩
    · exact hret _ _ (h.pend r h1)
    · subst h2
      rw [← h1]
      exact List.mem_of_getElem? hself
  · intro p x hm
    show s'.Pend (p, x) ∨ Slot s'.file p x
    rw [hk.file]
    obtain ⟨m, hm⟩ := List.getElem?_of_mem hm
    rcases getElem?_set_cases hm with ⟨-, he⟩ | ⟨-, hm⟩
    · simp only [Call.mk.injEq] at he
      rcases hk.ret p x he.1.symm he.2.symm with h1 | h1
      · refine (h.got p x ?_).imp (hk.keep _) id
        rw [he.1, ← h1]
        exact hcm
      · exact .inl h1
    · exact (h.got p x (List.mem_of_getElem? hm)).imp (hk.keep _) id

theorem val_step {s : State sz} (h : Val' s) (a : Act sz) (hc : ∀ x, a ≠ .call (.push x)) : Val' (s.step a) := by
  unfold State.step
  split
  · exact h
  cases a with
  | call j =>
    refine ⟨?_, ?_, ?_, ?_, ?_⟩
    · intro e he x
      rcases List.mem_append.mp he with he | he
      · exact h.nopush e he x
      · rw [List.mem_singleton.mp he]
        rintro rfl
        exact hc x rfl
    · intro e he p hp
      rcases List.mem_append.mp he with he | he
      · exact h.lt e he p hp
      · rw [List.mem_singleton.mp he] at hp
        cases hp
    · intro m m' e e' p hm hm' hp hp'
      rcases getElem?_append_cases hm with hm | rfl
      · rcases getElem?_append_cases hm' with hm' | rfl
        · exact h.inj m m' e e' p hm hm' hp hp'
        · cases hp'
      · cases hp
    · intro r hr
      exact List.mem_append_left _ (h.pend r hr)
    · intro p x hm
      rcases List.mem_append.mp hm with hm | hm
      · exact h.got p x hm
      · have := List.mem_singleton.mp hm
        simp at this
  | advance n =>
    simp only
    cases hn : s.calls[n]? with
    | none => exact h
    | some c => exact val_advance h hn
  | complete k i =>
    simp only
    cases hd : s.scheds[k]? with
    | none => exact h
    | some d =>
      simp only
      cases hr : d.pending[i]? with
      | none => exact h
      | some r =>
        have hrp : s.Pend r := ⟨k, d, hd, List.mem_of_getElem? hr⟩
        refine ⟨h.nopush, h.lt, h.inj, ?_, ?_⟩
        · rintro q ⟨j, e, he, hq⟩
          rcases getElem?_set_cases he with ⟨rfl, rfl⟩ | ⟨-, he⟩
          · exact h.pend q ⟨j, d, hd, List.mem_of_mem_eraseIdx hq⟩
          · exact h.pend q ⟨j, e, he, hq⟩
        · intro p x hm
          by_cases hpr : p = r.1
          · -- the call whose write this is
            have h2 := h.pend r hrp
            obtain ⟨n1, h1⟩ := List.getElem?_of_mem hm
            obtain ⟨n2, h2⟩ := List.getElem?_of_mem h2
            obtain rfl := h.inj n1 n2 _ _ p h1 h2 rfl (by rw [hpr]; rfl)
            rw [h1] at h2
            have : x = r.2 := by simpa using (Call.mk.inj (Option.some.inj h2)).1
            subst this hpr
            exact .inr (slot_write_self s.file r.1 r.2)
          · rcases h.got p x hm with h1 | h1
            · left
              obtain ⟨j, e, he, hq⟩ := h1
              by_cases hjk : k = j
              · subst hjk
                rw [hd] at he
                cases he
                refine ⟨k, { d with pending := d.pending.eraseIdx i }, ?_, ?_⟩
                · show (s.scheds.set k _)[k]? = _
                  rw [List.getElem?_set]
                  simp [(List.getElem?_eq_some_iff.mp hd).1]
                · rcases mem_eraseIdx_or hr hq with h3 | h3
                  · exact h3
                  · exact absurd (congrArg Prod.fst h3) hpr
              · refine ⟨j, e, ?_, hq⟩
                show (s.scheds.set k _)[j]? = some e
                rw [List.getElem?_set, if_neg hjk]
                exact he
            · exact .inr (slot_write_ne r.2 hpr h1)

theorem val_init (linux sched : Bool) : Val' (State.init sz linux sched) := by
  refine ⟨by simp [State.init], by simp [State.init], by simp [State.init], ?_, by simp [State.init]⟩
  rintro r ⟨k, d, hd, hr⟩
  cases sched with
  | false => simp [State.init] at hd
  | true =>
    cases k with
    | zero =>
      simp [State.init] at hd
      subst hd
      cases hr
    | succ k => simp [State.init] at hd

theorem val_run {s : State sz} (h : Val' s) (acts : List (Act sz)) (hc : ∀ x, Job.push x ∉ Spec.jobs acts) : Val' (s.run acts) := by
  induction acts generalizing s with
  | nil => exact h
  | cons a l ih =>
    refine ih (val_step h a ?_) ?_
    · rintro x rfl
      exact hc x (by simp [Spec.jobs])
    · intro x hx
      refine hc x ?_
      unfold Spec.jobs at hx ⊢
      rw [List.filterMap_cons]
      split
      · exact hx
      · exact List.mem_cons_of_mem _ hx

/-! ## One `commit` after everything else -/

/-- Before the `commit` -/
structure Before (s : State sz) : Prop where
  inv : Inv s
  job : ∀ c ∈ s.calls, ∃ x, c.job = .asyncPush x
  comm : s.committed = false
  only : ∀ (k : Nat) d, s.scheds[k]? = some d → s.ptr = some k

theorem before_init (linux sched : Bool) : Before (State.init sz linux sched) := by
  refine ⟨inv_init linux sched, by simp [State.init], rfl, ?_⟩
  intro k d hd
  cases sched with
  | false => simp [State.init] at hd
  | true =>
    cases k with
    | zero => rfl
    | succ k => simp [State.init] at hd

theorem set_only {s : State sz} (h : ∀ (k : Nat) d, s.scheds[k]? = some d → s.ptr = some k) {k : Nat} {d d' : Sched sz} (hd : s.scheds[k]? = some d) :
    ∀ (j : Nat) e, (s.scheds.set k d')[j]? = some e → s.ptr = some j := by
  intro j e he
  rcases getElem?_set_cases he with ⟨rfl, -⟩ | ⟨-, he⟩
  · exact h j d hd
  · exact h j e he

theorem next_before {s : State sz} (h : Before s) (c : Call sz) {x : Val sz} (hj : c.job = .asyncPush x) :
    (next s c.job c.pc).1.committed = false ∧
    ∀ (k : Nat) d, (next s c.job c.pc).1.scheds[k]? = some d → (next s c.job c.pc).1.ptr = some k := by
  obtain ⟨j, pc⟩ := c
  subst hj
  have idle : s.committed = false ∧ ∀ (k : Nat) d, s.scheds[k]? = some d → s.ptr = some k := ⟨h.comm, h.only⟩
  cases pc with
  | begun =>
    simp only [next]
    split <;> exact idle
  | checked => exact idle
  | taken p =>
    simp only [next]
    split <;> exact idle
  | submitting p k =>
    simp only [next, State.use]
    cases hd : s.scheds[k]? with
    | none => exact idle
    | some d =>
      simp only
      split
      · split
        · exact idle
        · exact ⟨h.comm, set_only h.only hd⟩
      · exact idle
  | _ => exact idle

theorem before_step {s : State sz} (h : Before s) (a : Act sz) (hc : ∀ j, a = .call j → ∃ x, j = .asyncPush x) : Before (s.step a) := by
  have hinv : Inv (s.step a) := by
    refine inv_step h.inv a ?_
    intro j hj
    obtain ⟨x, rfl⟩ := hc j hj
    refine ⟨?_, by intro e; cases e⟩
    intro c hcm e
    obtain ⟨y, hy⟩ := h.job c hcm
    rw [hy] at e
    cases e
  refine ⟨hinv, ?_, ?_, ?_⟩ <;> clear hinv <;> unfold State.step <;> rw [if_neg (by simp [h.inv.fault])]
  · cases a with
    | call j =>
      intro c hcm
      rcases List.mem_append.mp hcm with h1 | h1
      · exact h.job c h1
      · rw [List.mem_singleton.mp h1]
        exact hc j rfl
    | advance n =>
      simp only
      cases hn : s.calls[n]? with
      | none => exact h.job
      | some c =>
        intro e he
        rcases List.mem_or_eq_of_mem_set he with he | rfl
        · exact h.job e he
        · exact h.job c (List.mem_of_getElem? hn)
    | complete k i =>
      simp only
      split
      · exact h.job
      · split <;> exact h.job
  · cases a with
    | call j => exact h.comm
    | advance n =>
      simp only
      cases hn : s.calls[n]? with
      | none => exact h.comm
      | some c =>
        obtain ⟨x, hx⟩ := h.job c (List.mem_of_getElem? hn)
        exact (next_before h c hx).1
    | complete k i =>
      simp only
      split
      · exact h.comm
      · split <;> exact h.comm
  · cases a with
    | call j => exact h.only
    | advance n =>
      simp only
      cases hn : s.calls[n]? with
      | none => exact h.only
      | some c =>
        obtain ⟨x, hx⟩ := h.job c (List.mem_of_getElem? hn)
        exact (next_before h c hx).2
    | complete k i =>
      simp only
      cases hd : s.scheds[k]? with
      | none => exact h.only
      | some d =>
        simp only
        split
        · exact h.only
        · exact set_only h.only hd

theorem before_run {s : State sz} (h : Before s) (acts : List (Act sz)) (hc : Spec.OnlyAsync acts) : Before (s.run acts) := by
  induction acts generalizing s with
  | nil => exact h
  | cons a l ih =>
    refine ih (before_step h a ?_) ?_
    · rintro j rfl
      exact hc j (by simp [Spec.jobs])
    · intro j hj
      refine hc j ?_
      unfold Spec.jobs at hj ⊢
      rw [List.filterMap_cons]
      split
      · exact hj
      · exact List.mem_cons_of_mem _ hj

/-- What is known at each point of the `commit` -/
def PhOk (s : State sz) (pc : Pc) : Prop :=
  match pc with
  | .begun | .waiting _ => s.committed = false ∧ ∀ (k : Nat) d, s.scheds[k]? = some d → s.ptr = some k
  | .duplicating | .replacing _ | .destroying _ | .flagging => ∀ (k : Nat) d, s.scheds[k]? = some d → d.pending = []
  | .done => s.committed = true ∧ ∀ (k : Nat) d, s.scheds[k]? = some d → d.pending = []
  | _ => False

/-- Call `n` is the `commit` and the other calls have ended. -/
structure Ph (s : State sz) (n : Nat) : Prop where
  inv : Inv s
  call : ∃ pc, s.calls[n]? = some ⟨.commit, pc⟩ ∧ PhOk s pc
  others : ∀ (m : Nat) c, m ≠ n → s.calls[m]? = some c → Spec.ended c = true

theorem set_empty {s : State sz} (h : ∀ (k : Nat) d, s.scheds[k]? = some d → d.pending = []) {k : Nat} {d' : Sched sz} (hd : d'.pending = []) :
    ∀ (j : Nat) e, (s.scheds.set k d')[j]? = some e → e.pending = [] := by
  intro j e he
  rcases getElem?_set_cases he with ⟨rfl, rfl⟩ | ⟨-, he⟩
  · exact hd
  · exact h j e he

theorem next_ph {s : State sz} (hi : Inv s) {n : Nat} {pc : Pc} (hn : s.calls[n]? = some ⟨.commit, pc⟩) (h : PhOk s pc) :
    PhOk (next s .commit pc).1 (next s .commit pc).2 := by
  have hc := hi.calls _ (List.mem_of_getElem? hn)
  cases pc with
  | begun =>
    simp only [next, h.1, Bool.false_eq_true, if_false]
    cases hk : s.ptr with
    | none =>
      intro k d hd
      have := h.2 k d hd
      rw [hk] at this
      cases this
    | some k => exact h
  | waiting k =>
    have hk : s.ptr = some k := hc
    obtain ⟨d, hd, hda⟩ := hi.ptr k hk
    simp only [next, State.use, hd, hda, if_true]
    by_cases hp : d.pending = []
    · simp only [hp, if_true]
      intro j e he
      rcases getElem?_set_cases he with ⟨-, rfl⟩ | ⟨hjk, he⟩
      · rfl
      · have := h.2 j e he
        rw [hk] at this
        exact absurd (Option.some.inj this).symm hjk
    · simp only [hp, if_false]
      exact ⟨h.1, set_only h.2 hd⟩
  | duplicating =>
    have hs : s.ptr.isSome := hc
    obtain ⟨k, hk⟩ := Option.isSome_iff_exists.mp hs
    obtain ⟨d, hd, hda⟩ := hi.ptr k hk
    simp only [next, State.use, hk, hd, hda, if_true]
    intro j e he
    rcases getElem?_append_cases he with he | rfl
    · exact h j e he
    · rfl
  | replacing m =>
    obtain ⟨hs, -, -⟩ := hc
    obtain ⟨k, hk⟩ := Option.isSome_iff_exists.mp hs
    simp only [next, hk]
    exact h
  | destroying k =>
    obtain ⟨-, -, d, hd, hda⟩ := hc
    simp only [next, State.use, hd, hda, if_true, h k d hd]
    exact set_empty h rfl
  | flagging => exact ⟨rfl, h⟩
  | done => exact h
  | _ => exact h.elim

theorem ph_step {s : State sz} {n : Nat} (h : Ph s n) (a : Act sz) (hc : ∀ j, a ≠ .call j) : Ph (s.step a) n := by
  have hinv : Inv (s.step a) := inv_step h.inv a (fun j hj => absurd hj (hc j))
  obtain ⟨pc, hn, hp⟩ := h.call
  refine ⟨hinv, ?_, ?_⟩ <;> clear hinv <;> unfold State.step <;> rw [if_neg (by simp [h.inv.fault])]
  · cases a with
    | call j => exact absurd rfl (hc j)
    | advance m =>
      simp only
      by_cases hmn : m = n
      · subst hmn
        rw [hn]
        refine ⟨(next s .commit pc).2, ?_, ?_⟩
        · show (s.calls.set m _)[m]? = _
          rw [List.getElem?_set]
          simp [(List.getElem?_eq_some_iff.mp hn).1]
        · have := next_ph h.inv hn hp
          revert this
          cases (next s .commit pc).2 <;> exact id
      · cases hm : s.calls[m]? with
        | none => exact ⟨pc, hn, hp⟩
        | some c =>
          simp only
          rw [next_ended s c (h.others m c hmn hm)]
          refine ⟨pc, ?_, ?_⟩
          · show (s.calls.set m _)[n]? = _
            rw [List.getElem?_set, if_neg hmn]
            exact hn
          · revert hp
            cases pc <;> exact id
    | complete k i =>
      simp only
      cases hd : s.scheds[k]? with
      | none => exact ⟨pc, hn, hp⟩
      | some d =>
        simp only
        cases hr : d.pending[i]? with
        | none => exact ⟨pc, hn, hp⟩
        | some r =>
          refine ⟨pc, hn, ?_⟩
          have hfull : (∀ (k : Nat) d, s.scheds[k]? = some d → d.pending = []) → False := by
            intro h'
            rw [h' k d hd] at hr
            cases hr
          cases pc with
          | begun => exact ⟨hp.1, set_only hp.2 hd⟩
          | waiting j => exact ⟨hp.1, set_only hp.2 hd⟩
          | duplicating => exact (hfull hp).elim
          | replacing j => exact (hfull hp).elim
          | destroying j => exact (hfull hp).elim
          | flagging => exact (hfull hp).elim
          | done => exact (hfull hp.2).elim
          | _ => exact hp.elim
  · cases a with
    | call j => exact absurd rfl (hc j)
    | advance m =>
      simp only
      cases hm : s.calls[m]? with
      | none => exact h.others
      | some c =>
        intro m' e hne he
        rcases getElem?_set_cases he with ⟨rfl, rfl⟩ | ⟨-, he⟩
        · have := h.others m' c hne hm
          rw [next_ended s c this]
          exact this
        · exact h.others m' e hne he
    | complete k i =>
      simp only
      split
      · exact h.others
      · split <;> exact h.others

theorem ph_run {s : State sz} {n : Nat} (h : Ph s n) (acts : List (Act sz)) (hc : Spec.jobs acts = []) : Ph (s.run acts) n := by
  induction acts generalizing s with
  | nil => exact h
  | cons a l ih =>
    unfold Spec.jobs at hc
    rw [List.filterMap_cons] at hc
    cases a with
    | call j => cases hc
    | advance m => exact ih (ph_step h _ (by simp)) hc
    | complete k i => exact ih (ph_step h _ (by simp)) hc

theorem ph_begin {s : State sz} (h : Before s) (ho : Spec.Over s) : Ph (s.step (.call .commit)) s.calls.length := by
  have hinv : Inv (s.step (.call .commit)) := by
    refine inv_step h.inv _ ?_
    intro j _
    exact ⟨fun c hc _ => ho c hc, fun _ => ho⟩
  refine ⟨hinv, ?_, ?_⟩ <;> clear hinv <;> unfold State.step <;> rw [if_neg (by simp [h.inv.fault])]
  · exact ⟨.begun, by simp, h.comm, h.only⟩
  · intro m c hm hcm
    rcases Nat.lt_or_ge m s.calls.length with hl | hl
    · rw [List.getElem?_append_left hl] at hcm
      exact ho c (List.mem_of_getElem? hcm)
    · have hl' := (List.getElem?_eq_some_iff.mp hcm).1
      simp at hl'
      omega

/-! ## All appends return -/

/-- Before the `commit`, with a scheduler that takes the values: no call has failed, and every position belongs to a call. -/
structure Full (s : State sz) : Prop where
  sched : s.ptr.isSome
  size : s.linux = true → sz % 512 = 0
  live : ∀ d ∈ s.scheds, d.stopped = false
  fine : ∀ c ∈ s.calls, c.pc ≠ .threw ∧ c.pc ≠ .done
  onto : ∀ p < s.size, ∃ c ∈ s.calls, slotOf c.pc = some p

theorem full_init (linux : Bool) (h : linux = true → sz % 512 = 0) : Full (State.init sz linux true) :=
  ⟨rfl, h, by simp [State.init], by simp [State.init], by simp [State.init]⟩

/-- What a step of an append leaves, before the `commit` -/
structure NextFull (s : State sz) (c : Call sz) (s' : State sz) (pc : Pc) : Prop where
  ptr : s'.ptr = s.ptr
  linux : s'.linux = s.linux
  live : ∀ d ∈ s'.scheds, d.stopped = false
  fine : pc ≠ .threw ∧ pc ≠ .done
  keep : ∀ p, slotOf c.pc = some p → slotOf pc = some p
  size : s'.size = s.size ∨ (s'.size = s.size + 1 ∧ slotOf c.pc = none ∧ slotOf pc = some s.size)

theorem next_full {s : State sz} (hi : Inv s) (h : Full s) {c : Call sz} (hc : c ∈ s.calls) {x : Val sz} (hj : c.job = .asyncPush x) :
    NextFull s c (next s c.job c.pc).1 (next s c.job c.pc).2 := by
  have hok := hi.calls c hc
  have hthrew := h.fine c hc
  obtain ⟨j, pc⟩ := c
  subst hj
  have same : ∀ pc', pc' ≠ .threw ∧ pc' ≠ .done → (∀ p, slotOf pc = some p → slotOf pc' = some p) → NextFull s ⟨.asyncPush x, pc⟩ s pc' :=
    fun pc' h1 h2 => ⟨rfl, rfl, h.live, h1, h2, .inl rfl⟩
  cases pc with
  | begun =>
    simp only [next, h.sched, if_true]
    exact same .checked (by simp) (by simp [slotOf])
  | checked => exact ⟨rfl, rfl, h.live, by simp [next], by simp [slotOf], .inr ⟨rfl, rfl, rfl⟩⟩
  | taken p =>
    obtain ⟨k, hk⟩ := Option.isSome_iff_exists.mp h.sched
    simp only [next, hk]
    exact same (.submitting p k) (by simp) (by simp [slotOf])
  | submitting p k =>
    have hk : s.ptr = some k := hok
    obtain ⟨d, hd, hda⟩ := hi.ptr k hk
    have hst := h.live d (List.mem_of_getElem? hd)
    simp only [next, State.use, hd, hda, if_true]
    rw [if_neg]
    · refine ⟨rfl, rfl, ?_, by simp, by simp [slotOf], .inl rfl⟩
      intro e he
      rcases List.mem_or_eq_of_mem_set he with he | rfl
      · exact h.live e he
      · exact hst
    · rintro ⟨h1, h2 | h2⟩
      · rw [hst] at h2
        cases h2
      · exact h2 (h.size h1)
  | threw => exact absurd rfl hthrew.1
  | done => exact absurd rfl hthrew.2
  | _ => exact same _ hthrew (fun _ h => h)

theorem full_step {s : State sz} (hB : Before s) (h : Full s) (a : Act sz) : Full (s.step a) := by
  unfold State.step
  rw [if_neg (by simp [hB.inv.fault])]
  cases a with
  | call j =>
    refine ⟨h.sched, h.size, h.live, ?_, ?_⟩
    · intro c hc
      rcases List.mem_append.mp hc with hc | hc
      · exact h.fine c hc
      · rw [List.mem_singleton.mp hc]
        simp
    · intro p hp
      obtain ⟨c, hc, hcp⟩ := h.onto p hp
      exact ⟨c, List.mem_append_left _ hc, hcp⟩
  | advance n =>
    simp only
    cases hn : s.calls[n]? with
    | none => exact h
    | some c =>
      have hcm := List.mem_of_getElem? hn
      obtain ⟨x, hx⟩ := hB.job c hcm
      have hk := next_full hB.inv h hcm hx
      simp only
      generalize (next s c.job c.pc).1 = s' at hk ⊢
      generalize (next s c.job c.pc).2 = pc at hk ⊢
      have hself : (⟨c.job, pc⟩ : Call sz) ∈ s.calls.set n ⟨c.job, pc⟩ := by
        refine List.mem_of_getElem? (i := n) ?_
        rw [List.getElem?_set]
        simp [(List.getElem?_eq_some_iff.mp hn).1]
      refine ⟨?_, ?_, hk.live, ?_, ?_⟩
      · show s'.ptr.isSome
        rw [hk.ptr]
        exact h.sched
      · show s'.linux = true → _
        rw [hk.linux]
        exact h.size
      · intro e he
        rcases List.mem_or_eq_of_mem_set he with he | rfl
        · exact h.fine e he
        · exact hk.fine
      · intro p hp
        have old : p < s.size → ∃ c' ∈ s.calls.set n ⟨c.job, pc⟩, slotOf c'.pc = some p := by
          intro hp
          obtain ⟨e, he, hep⟩ := h.onto p hp
          obtain ⟨m, hm⟩ := List.getElem?_of_mem he
          by_cases hmn : m = n
          · subst hmn
            rw [hn] at hm
            cases hm
            exact ⟨_, hself, hk.keep p hep⟩
          · refine ⟨e, List.mem_of_getElem? (i := m) ?_, hep⟩
            rw [List.getElem?_set, if_neg (Ne.symm hmn)]
            exact hm
        have hp' : p < s'.size := hp
        rcases hk.size with h1 | ⟨h1, -, h2⟩
        · exact old (by omega)
        · by_cases hps : p = s.size
          · subst hps
            exact ⟨_, hself, h2⟩
          · exact old (by omega)
  | complete k i =>
    simp only
    cases hd : s.scheds[k]? with
    | none => exact h
    | some d =>
      simp only
      cases hr : d.pending[i]? with
      | none => exact h
      | some r =>
        refine ⟨h.sched, h.size, ?_, h.fine, h.onto⟩
        intro e he
        rcases List.mem_or_eq_of_mem_set he with he | rfl
        · exact h.live e he
        · exact h.live d (List.mem_of_getElem? hd)

theorem full_run {s : State sz} (hB : Before s) (h : Full s) (acts : List (Act sz)) (hc : Spec.OnlyAsync acts) : Full (s.run acts) := by
  induction acts generalizing s with
  | nil => exact h
  | cons a l ih =>
    refine ih (before_step hB a ?_) (full_step hB h a) ?_
    · rintro j rfl
      exact hc j (by simp [Spec.jobs])
    · intro j hj
      refine hc j ?_
      unfold Spec.jobs at hj ⊢
      rw [List.filterMap_cons]
      split
      · exact hj
      · exact List.mem_cons_of_mem _ hj

theorem jobs_run {s : State sz} (hB : Before s) (acts : List (Act sz)) (hc : Spec.OnlyAsync acts) :
    (s.run acts).calls.map Call.job = s.calls.map Call.job ++ Spec.jobs acts := by
  induction acts generalizing s with
  | nil => simp [State.run, Spec.jobs]
  | cons a l ih =>
    have hrest : Spec.OnlyAsync l := by
      intro j hj
      refine hc j ?_
      unfold Spec.jobs at hj ⊢
      rw [List.filterMap_cons]
      split
      · exact hj
      · exact List.mem_cons_of_mem _ hj
    have hstep : Before (s.step a) := by
      refine before_step hB a ?_
      rintro j rfl
      exact hc j (by simp [Spec.jobs])
    show ((s.step a).run l).calls.map Call.job = _
    rw [ih hstep hrest]
    have hf : ¬ s.fault = true := by simp [hB.inv.fault]
    cases a with
    | call j =>
      unfold State.step
      rw [if_neg hf]
      simp [Spec.jobs]
    | advance n =>
      have : (s.step (.advance n)).calls.map Call.job = s.calls.map Call.job := by
        unfold State.step
        rw [if_neg hf]
        simp only
        cases hn : s.calls[n]? with
        | none => rfl
        | some c =>
          show (s.calls.set n _).map Call.job = _
          rw [List.map_set]
          exact Verif.Vec.Conc.set_same (by rw [List.getElem?_map, hn]; rfl)
      rw [this]
      rfl
    | complete k i =>
      have : (s.step (.complete k i)).calls = s.calls := by
        unfold State.step
        rw [if_neg hf]
        simp only
        split
        · rfl
        · split <;> rfl
      rw [this]
      rfl

theorem before_returned {s : State sz} (hB : Before s) (hF : Full s) (ho : Spec.Over s) {c : Call sz} (hc : c ∈ s.calls) :
    ∃ x p, c = ⟨.asyncPush x, .returned p⟩ := by
  obtain ⟨x, hx⟩ := hB.job c hc
  have he := ho c hc
  have hf := hF.fine c hc
  obtain ⟨j, pc⟩ := c
  cases pc with
  | returned p => exact ⟨x, p, by rw [← hx]⟩
  | threw => exact absurd rfl hf.1
  | done => exact absurd rfl hf.2
  | _ => cases he

/-- As many positions as calls -/
theorem size_eq {s : State sz} (hB : Before s) (hF : Full s) (hV : Val' s) (ho : Spec.Over s) : s.size = s.calls.length := by
  have hsome : ∀ c ∈ s.calls, ∃ p, slotOf c.pc = some p := by
    intro c hc
    obtain ⟨x, p, rfl⟩ := before_returned hB hF ho hc
    exact ⟨p, rfl⟩
  let f : Call sz → Nat := fun c => (slotOf c.pc).getD 0
  have hf : ∀ c ∈ s.calls, slotOf c.pc = some (f c) := by
    intro c hc
    obtain ⟨p, hp⟩ := hsome c hc
    simp [f, hp]
  have hnd : (s.calls.map f).Nodup := by
    unfold List.Nodup
    rw [List.pairwise_iff_getElem]
    intro i j hi hj hij h
    have hj' : j < s.calls.length := by simpa using hj
    have hi' : i < s.calls.length := by omega
    rw [List.getElem_map, List.getElem_map] at h
    have := hV.inj i j _ _ (f s.calls[i]) (List.getElem?_eq_getElem hi') (List.getElem?_eq_getElem hj')
      (hf _ (List.getElem_mem hi')) (by rw [hf _ (List.getElem_mem hj')]; simpa using h.symm)
    omega
  have hp : (s.calls.map f).Perm (List.range s.size) := by
    refine (List.perm_ext_iff_of_nodup hnd List.nodup_range).mpr ?_
    intro p
    rw [List.mem_map, List.mem_range]
    constructor
    · rintro ⟨c, hc, rfl⟩
      exact hV.lt c hc _ (hf c hc)
    · intro h
      obtain ⟨c, hc, hcp⟩ := hF.onto p h
      exact ⟨c, hc, by simp [f, hcp]⟩
  simpa using hp.length_eq.symm

theorem next_commit_size (s : State sz) (pc : Pc) : (next s .commit pc).1.size = s.size := by
  cases pc <;> simp only [next, State.use]
  all_goals (repeat' split)
  all_goals rfl

/-- During the `commit` the size and the other calls do not change. -/
theorem ph_same {s : State sz} {n : Nat} (h : Ph s n) (acts : List (Act sz)) (hc : Spec.jobs acts = []) :
    (s.run acts).size = s.size ∧ ∀ m, m ≠ n → (s.run acts).calls[m]? = s.calls[m]? := by
  induction acts generalizing s with
  | nil => exact ⟨rfl, fun _ _ => rfl⟩
  | cons a l ih =>
    have hl : Spec.jobs l = [] ∧ ∀ j, a ≠ .call j := by
      unfold Spec.jobs at hc ⊢
      rw [List.filterMap_cons] at hc
      cases a with
      | call j => cases hc
      | advance m => exact ⟨hc, by simp⟩
      | complete k i => exact ⟨hc, by simp⟩
    obtain ⟨h1, h2⟩ := ih (ph_step h a hl.2) hl.1
    have hs : (s.step a).size = s.size ∧ ∀ m, m ≠ n → (s.step a).calls[m]? = s.calls[m]? := by
      unfold State.step
      rw [if_neg (by simp [h.inv.fault])]
      cases a with
      | call j => exact absurd rfl (hl.2 j)
      | advance i =>
        simp only
        cases hi : s.calls[i]? with
        | none => exact ⟨rfl, fun _ _ => rfl⟩
        | some c =>
          simp only
          by_cases hin : i = n
          · subst hin
            obtain ⟨pc, hn, -⟩ := h.call
            rw [hi] at hn
            cases hn
            refine ⟨next_commit_size s pc, ?_⟩
            intro m hm
            rw [List.getElem?_set, if_neg (Ne.symm hm)]
          · have he := h.others i c hin hi
            rw [next_ended s c he]
            refine ⟨rfl, ?_⟩
            intro m _
            show (s.calls.set i c)[m]? = _
            rw [Verif.Vec.Conc.set_same hi]
      | complete k i =>
        simp only
        split
        · exact ⟨rfl, fun _ _ => rfl⟩
        · split <;> exact ⟨rfl, fun _ _ => rfl⟩
    exact ⟨h1.trans hs.1, fun m hm => (h2 m hm).trans (hs.2 m hm)⟩

/-! ## The `commit` can end -/

/-- Some continuation without calls ends call `n`. -/
def CanEnd (s : State sz) (n : Nat) : Prop :=
  ∃ acts : List (Act sz), Spec.jobs acts = [] ∧ (s.run acts).calls[n]? = some ⟨.commit, .done⟩

theorem canEnd_advance {s : State sz} {n m : Nat} (h : CanEnd (s.step (.advance m)) n) : CanEnd s n := by
  obtain ⟨acts, h1, h2⟩ := h
  exact ⟨.advance m :: acts, h1, h2⟩

theorem canEnd_complete {s : State sz} {n k i : Nat} (h : CanEnd (s.step (.complete k i)) n) : CanEnd s n := by
  obtain ⟨acts, h1, h2⟩ := h
  exact ⟨.complete k i :: acts, h1, h2⟩

theorem call_advance {s : State sz} (hf : s.fault = false) {n : Nat} {pc : Pc} (hn : s.calls[n]? = some ⟨.commit, pc⟩) :
    (s.step (.advance n)).calls[n]? = some ⟨.commit, (next s .commit pc).2⟩ := by
  unfold State.step
  simp only [hf, Bool.false_eq_true, if_false, hn]
  rw [List.getElem?_set]
  simp [(List.getElem?_eq_some_iff.mp hn).1]

theorem canEnd_done {s : State sz} {n : Nat} (hn : s.calls[n]? = some ⟨.commit, .done⟩) : CanEnd s n := ⟨[], rfl, hn⟩

theorem canEnd_flagging {s : State sz} {n : Nat} (h : Ph s n) (hn : s.calls[n]? = some ⟨.commit, .flagging⟩) : CanEnd s n :=
  canEnd_advance (canEnd_done (call_advance h.inv.fault hn))

theorem ph_at {s : State sz} {n : Nat} (h : Ph s n) {pc : Pc} (hn : s.calls[n]? = some ⟨.commit, pc⟩) : PhOk s pc := by
  obtain ⟨pc', h1, h2⟩ := h.call
  rw [hn] at h1
  cases h1
  exact h2

theorem canEnd_destroying {s : State sz} {n k : Nat} (h : Ph s n) (hn : s.calls[n]? = some ⟨.commit, .destroying k⟩) : CanEnd s n := by
  obtain ⟨-, -, d, hd, hda⟩ := h.inv.calls _ (List.mem_of_getElem? hn)
  refine canEnd_advance (m := n) (canEnd_flagging (ph_step h _ (by simp)) ?_)
  rw [call_advance h.inv.fault hn]
  simp only [next, State.use, hd, hda, if_true, ph_at h hn k d hd]

theorem canEnd_replacing {s : State sz} {n m : Nat} (h : Ph s n) (hn : s.calls[n]? = some ⟨.commit, .replacing m⟩) : CanEnd s n := by
  obtain ⟨hs, -, -⟩ := h.inv.calls _ (List.mem_of_getElem? hn)
  obtain ⟨k, hk⟩ := Option.isSome_iff_exists.mp hs
  refine canEnd_advance (m := n) (canEnd_destroying (k := k) (ph_step h _ (by simp)) ?_)
  rw [call_advance h.inv.fault hn]
  simp only [next, hk]

theorem canEnd_duplicating {s : State sz} {n : Nat} (h : Ph s n) (hn : s.calls[n]? = some ⟨.commit, .duplicating⟩) : CanEnd s n := by
  have hs : s.ptr.isSome := h.inv.calls _ (List.mem_of_getElem? hn)
  obtain ⟨k, hk⟩ := Option.isSome_iff_exists.mp hs
  obtain ⟨d, hd, hda⟩ := h.inv.ptr k hk
  refine canEnd_advance (m := n) (canEnd_replacing (m := s.scheds.length) (ph_step h _ (by simp)) ?_)
  rw [call_advance h.inv.fault hn]
  simp only [next, State.use, hk, hd, hda, if_true]

theorem canEnd_waiting (l : Nat) {s : State sz} {n k : Nat} {d : Sched sz} (h : Ph s n) (hn : s.calls[n]? = some ⟨.commit, .waiting k⟩)
    (hd : s.scheds[k]? = some d) (hl : d.pending.length = l) : CanEnd s n := by
  induction l generalizing s d with
  | zero =>
    have hk : s.ptr = some k := h.inv.calls _ (List.mem_of_getElem? hn)
    obtain ⟨d', hd', hda⟩ := h.inv.ptr k hk
    rw [hd] at hd'
    cases hd'
    refine canEnd_advance (m := n) (canEnd_duplicating (ph_step h _ (by simp)) ?_)
    rw [call_advance h.inv.fault hn]
    simp only [next, State.use, hd, hda, if_true, List.length_eq_zero_iff.mp hl]
  | succ l ih =>
    have hr : d.pending[0]? = some (d.pending[0]'(by omega)) := List.getElem?_eq_getElem (by omega)
    have hs : s.step (.complete k 0) = { s with
        file := writeReq s.file (d.pending[0]'(by omega)), scheds := s.scheds.set k { d with pending := d.pending.eraseIdx 0 } } := by
      unfold State.step
      simp only [h.inv.fault, Bool.false_eq_true, if_false, hd, hr]
    refine canEnd_complete (k := k) (i := 0) (ih (d := { d with pending := d.pending.eraseIdx 0 }) (ph_step h _ (by simp)) ?_ ?_ ?_)
    · rw [hs]; exact hn
    · rw [hs]
      show (s.scheds.set k _)[k]? = _
      rw [List.getElem?_set]
      simp [(List.getElem?_eq_some_iff.mp hd).1]
    · show (d.pending.eraseIdx 0).length = l
      rw [List.length_eraseIdx_of_lt (by omega)]
      omega

theorem canEnd {s : State sz} {n : Nat} (h : Ph s n) : CanEnd s n := by
  obtain ⟨pc, hn, hp⟩ := h.call
  have waiting : ∀ {s : State sz} {k : Nat}, Ph s n → s.calls[n]? = some ⟨.commit, .waiting k⟩ → CanEnd s n := by
    intro s k h hn
    have hk : s.ptr = some k := h.inv.calls _ (List.mem_of_getElem? hn)
    obtain ⟨d, hd, -⟩ := h.inv.ptr k hk
    exact canEnd_waiting _ h hn hd rfl
  cases pc with
  | begun =>
    have hstep := call_advance h.inv.fault hn
    simp only [next, hp.1, Bool.false_eq_true, if_false] at hstep
    cases hk : s.ptr with
    | none =>
      rw [hk] at hstep
      exact canEnd_advance (canEnd_flagging (ph_step h _ (by simp)) hstep)
    | some k =>
      rw [hk] at hstep
      exact canEnd_advance (waiting (ph_step h _ (by simp)) hstep)
  | waiting k => exact waiting h hn
  | duplicating => exact canEnd_duplicating h hn
  | replacing m => exact canEnd_replacing h hn
  | destroying k => exact canEnd_destroying h hn
  | flagging => exact canEnd_flagging h hn
  | done => exact canEnd_done hn
  | _ => exact hp.elim

end Verif.Vec.Commit
