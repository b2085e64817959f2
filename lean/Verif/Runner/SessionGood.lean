import Verif.Runner.SessionExStep

/-!
# Update sessions without failures: nothing is lost
-/

namespace Verif.Runner.Sess

open Verif

variable {Kw : Type} {S : Scheme Kw} [DecidableEq Kw]

/-- What holds when moreover the network and the server do not fail -/
structure Good (s : State S) : Prop where
  unbroken : ∀ (k : Nat) z, s.streams[k]? = some z → z.broken = false
  queues : ∀ (k : Nat) z, s.streams[k]? = some z → s.writer ≠ some k → z.queue = []
  occ : ∀ p n, RequestedBy s.trace p n → Sess.occ s p = 1 ∨ Event.threw n ∈ s.trace

omit [DecidableEq Kw] in
theorem good_init : Good (init S) := by
  constructor <;> simp [init, RequestedBy, requests]

omit [DecidableEq Kw] in
/-- Without failures, a request stays where it is or goes on, but for the requests of a call that throws. -/
theorem occ_eq {s s' : State S} (h : Tr s true s')
    (hu : ∀ (k : Nat) z, s.streams[k]? = some z → z.broken = false)
    (ho : ∀ (n : Nat) c, s.calls[n]? = some (c, .opening) → s.writer = none) :
    (requests s'.trace = requests s.trace ∧ ∀ p, occ s' p = occ s p ∨
      ∃ (n : Nat) (c : Call Kw) (ms : List (Msg S)), s.calls[n]? = some (c, .check ms) ∧
        Event.threw n ∈ s'.trace ∧ 0 < cn p ms) ∨
    ∃ n c pc l pc', s.calls[n]? = some (c, pc) ∧ Asks c pc l pc' ∧
      s' = { s with calls := s.calls.set n (c, pc' (number (numReqs s.trace) (cliRun S s.cli l).1)),
                    cli := (cliRun S s.cli l).2,
                    trace := s.trace ++ l.map (fun x => Event.requested n x.1 x.2) } := by
  cases h with
  | call _ c =>
    refine .inl ⟨by simp [requests], fun p => .inl ?_⟩
    simp [occ, stored, msgs, cn]
  | move _ n c pc pc' hn hm =>
    refine .inl ⟨rfl, fun p => .inl ?_⟩
    have := sum_set (fun c : Call Kw × Pc S => cn p (msgs c.2)) (c, pc') hn
    have hmm : cn p (msgs pc') = cn p (msgs pc) := by
      cases hm with
      | broken _ m ms k z hw hz hb =>
        rw [hu k z hz] at hb
        cases hb
      | _ => rfl
    simp only [occ] at *
    omega
  | ret _ n c pc w u x hn hr =>
    have h1 := ret_msgs hr
    refine .inl ⟨by simp [requests], fun p => .inl ?_⟩
    have := sum_set (fun c : Call Kw × Pc S => cn p (msgs c.2)) (c, .over) hn
    simp only [occ, stored_append, msgs] at *
    simp [stored, cn, h1] at *
    omega
  | throw _ n c pc hn ht =>
    refine .inl ⟨by simp [requests], fun p => ?_⟩
    have := sum_set (fun c : Call Kw × Pc S => cn p (msgs c.2)) (c, .over) hn
    cases ht with
    | check _ ms hup =>
      rcases Nat.eq_zero_or_pos (cn p ms) with h0 | h0
      · left
        simp only [occ, stored_append, msgs, h0] at *
        simp [stored, cn] at *
        omega
      · exact .inr ⟨n, c, ms, hn, by simp, h0⟩
    | list l hup =>
      left
      simp only [occ, stored_append, msgs] at *
      simp [stored, cn] at *
      omega
  | request _ n c pc l pc' hn ha => exact .inr ⟨n, c, pc, l, pc', hn, ha, rfl⟩
  | rpc _ n c m hn =>
    refine .inl ⟨by simp [requests], fun p => .inl ?_⟩
    have := sum_set (fun c : Call Kw × Pc S => cn p (msgs c.2)) (c, .over) hn
    simp only [occ, stored_append, msgs] at *
    simp [stored, cn, List.count_cons] at *
    omega
  | lock _ n c ms hn hm =>
    refine .inl ⟨rfl, fun p => .inl ?_⟩
    have := sum_set (fun c : Call Kw × Pc S => cn p (msgs c.2)) (c, .write ms) hn
    simp only [occ, msgs] at *
    omega
  | write _ n c m ms k z hn hw hz hd hb =>
    refine .inl ⟨rfl, fun p => .inl ?_⟩
    have h1 := sum_set (fun c : Call Kw × Pc S => cn p (msgs c.2)) (c, .write ms) hn
    have h2 := sum_set (fun z : Stream S => cn p z.queue) { z with queue := z.queue ++ [m] } hz
    simp only [occ, msgs, cn, List.countP_cons, List.countP_append, List.countP_nil, Nat.zero_add] at *
    omega
  | opened _ n c hn hw =>
    refine .inl ⟨rfl, fun p => .inl ?_⟩
    have := sum_set (fun c : Call Kw × Pc S => cn p (msgs c.2)) (c, .up) hn
    simp only [occ, msgs, List.map_append, List.sum_append] at *
    simp [cn] at *
    omega
  | reopened _ n c k hn hw =>
    rw [ho n c hn] at hw
    cases hw
  | writesDone _ n c k z hn hw hz hd =>
    refine .inl ⟨rfl, fun p => .inl ?_⟩
    have h1 := sum_set (fun c : Call Kw × Pc S => cn p (msgs c.2)) (c, .wait) hn
    have h2 := sum_set (fun z : Stream S => cn p z.queue) { z with done := true } hz
    simp only [occ, msgs] at *
    omega
  | down _ n c hn =>
    refine .inl ⟨rfl, fun p => .inl ?_⟩
    have h1 := sum_set (fun c : Call Kw × Pc S => cn p (msgs c.2)) (c, .reset) hn
    simp only [occ, msgs] at *
    omega
  | search _ n w hn =>
    refine .inl ⟨by simp [requests], fun p => .inl ?_⟩
    have := sum_set (fun c : Call Kw × Pc S => cn p (msgs c.2)) (.search w, .over) hn
    simp only [occ, stored_append, msgs] at *
    simp [stored, cn] at *
    omega
  | recv _ k m ms d hz =>
    refine .inl ⟨by simp [requests], fun p => .inl ?_⟩
    have h2 := sum_set (fun z : Stream S => cn p z.queue) ⟨ms, d, false⟩ hz
    simp only [occ, stored_append] at *
    simp [stored, cn, List.count_cons, List.countP_cons] at *
    omega
  | nullWrite | nullDone | nullWait | lateWrite | lateDone => exact .inl ⟨rfl, fun _ => .inl rfl⟩

theorem Good.tr {s s' : State S} (hg : Good s) (hb : Base s) (h : Ex s) (ht : Tr s true s') : Good s' := by
  have hop : ∀ (n : Nat) c, s.calls[n]? = some (c, .opening) → s.writer = none :=
    fun n c hn => (h.loc n c _ hn).1
  have hocc : ∀ p n, RequestedBy s'.trace p n → Sess.occ s' p = 1 ∨ Event.threw n ∈ s'.trace := by
    obtain ⟨u, hu⟩ := tr_trace ht
    rcases occ_eq ht hg.unbroken hop with ⟨hr, hq⟩ | ⟨n, c, pc, l, pc', hn, ha, rfl⟩
    · intro p n hp
      have hp' : RequestedBy s.trace p n := by simpa [RequestedBy, hr] using hp
      rcases hg.occ p n hp' with h1 | h1
      · rcases hq p with h2 | ⟨m, c, ms, h2, h3, h4⟩
        · exact .inl (h2.trans h1)
        · obtain ⟨v, hv⟩ := mem_of_cn h4
          have := (hb.msgC m c _ h2 (p, v) hv).2
          rw [requestedBy_unique hp' this]
          exact .inr h3
      · exact .inr (by rw [hu]; exact List.mem_append_left _ h1)
    · intro p m hp
      rw [occ_request hb hn ha]
      rcases requestedBy_append.mp hp with hp | ⟨-, h1, h2⟩
      · rw [if_neg (by have := requestedBy_lt hp; omega)]
        rcases hg.occ p m hp with h1 | h1
        · exact .inl h1
        · exact .inr (List.mem_append_left _ h1)
      · exact .inl (if_pos ⟨h1, h2⟩)
  have hsame : s'.streams = s.streams → s'.writer = s.writer → Good s' := fun h1 h2 =>
    ⟨by rw [h1]; exact hg.unbroken, by rw [h1, h2]; exact hg.queues, hocc⟩
  cases ht with
  | call => exact hsame rfl rfl
  | move => exact hsame rfl rfl
  | ret _ n c pc w u x hn hr =>
    cases hr with
    | reset =>
      refine ⟨hg.unbroken, ?_, hocc⟩
      intro k z hz _
      obtain ⟨-, k', z', hk, hz', hq⟩ := h.loc n c _ hn
      by_cases he : k = k'
      · subst he
        have hz2 : s.streams[k]? = some z := hz
        rw [hz'] at hz2
        cases hz2
        exact hq
      · refine hg.queues k z hz ?_
        rw [hk]
        simpa using fun e => he e.symm
    | _ => exact hsame rfl rfl
  | throw => exact hsame rfl rfl
  | request => exact hsame rfl rfl
  | rpc => exact hsame rfl rfl
  | lock => exact hsame rfl rfl
  | write _ n c m ms k z hn hw hz hd hb =>
    refine ⟨?_, ?_, hocc⟩
    · intro j y hj
      rcases getElem?_set_some hz hj with ⟨rfl, rfl⟩ | ⟨-, h0⟩
      · exact hb
      · exact hg.unbroken j y h0
    · intro j y hj hne
      rcases getElem?_set_some hz hj with ⟨rfl, rfl⟩ | ⟨-, h0⟩
      · exact absurd hw hne
      · exact hg.queues j y h0 hne
  | opened _ n c hn hw =>
    refine ⟨?_, ?_, hocc⟩
    · intro j y hj
      rw [List.getElem?_append] at hj
      split at hj
      · exact hg.unbroken j y hj
      · have : y = ⟨[], false, false⟩ := by simpa using List.mem_of_getElem? hj
        rw [this]
    · intro j y hj _
      rw [List.getElem?_append] at hj
      split at hj
      · exact hg.queues j y hj (by rw [hw]; simp)
      · have : y = ⟨[], false, false⟩ := by simpa using List.mem_of_getElem? hj
        rw [this]
  | reopened _ n c k hn hw =>
    rw [hop n c hn] at hw
    cases hw
  | writesDone _ n c k z hn hw hz hd =>
    refine ⟨?_, ?_, hocc⟩
    · intro j y hj
      rcases getElem?_set_some hz hj with ⟨rfl, rfl⟩ | ⟨-, h0⟩
      · exact hg.unbroken j z hz
      · exact hg.unbroken j y h0
    · intro j y hj hne
      rcases getElem?_set_some hz hj with ⟨rfl, rfl⟩ | ⟨-, h0⟩
      · exact hg.queues j z hz hne
      · exact hg.queues j y h0 hne
  | down => exact hsame rfl rfl
  | search => exact hsame rfl rfl
  | recv _ k m ms d hz =>
    refine ⟨?_, ?_, hocc⟩
    · intro j y hj
      rcases getElem?_set_some hz hj with ⟨rfl, rfl⟩ | ⟨-, h0⟩
      · rfl
      · exact hg.unbroken j y h0
    · intro j y hj hne
      rcases getElem?_set_some hz hj with ⟨rfl, rfl⟩ | ⟨-, h0⟩
      · have := hg.queues j _ hz hne
        cases this
      · exact hg.queues j y h0 hne
  | nullWrite | nullDone | nullWait | lateWrite | lateDone => exact hsame rfl rfl

theorem Good.run {s : State S} (hg : Good s) (hb : Base s) (h : Ex s) (acts : List (Act Kw))
    (ha : acts.all Act.good = true) (hx : Exclusive (s.run acts).trace) : Good (s.run acts) := by
  induction acts generalizing s with
  | nil => exact hg
  | cons a acts ih =>
    have hx0 : Exclusive s.trace := by
      obtain ⟨u, hu⟩ := run_trace s (a :: acts)
      rw [hu] at hx
      intro p q hpq
      exact hx p (q ++ u) (by rw [hpq, List.append_assoc])
    rw [List.all_cons, Bool.and_eq_true] at ha
    refine ih ?_ (hb.step a) (h.step hx0 a).1 ha.2 hx
    rcases step_tr s a with h0 | ⟨-, h0⟩
    · rw [h0]; exact hg
    · rw [ha.1] at h0
      exact hg.tr hb h h0

/-- Without a session, everything that was requested by a call that is over is stored, unless the call
threw. -/
theorem Good.stored {s : State S} (hg : Good s) (h : Ex s)
    (ho : (scan s.trace).isOpen = false) {p n : Nat} (hp : RequestedBy s.trace p n)
    (hover : ∀ c pc, s.calls[n]? = some (c, pc) → pc = .over) (hmsg : Base s) (ht : Event.threw n ∉ s.trace) :
    p ∈ stored s.trace := by
  have h1 := (hg.occ p n hp).resolve_right ht
  have hw := h.opn ho
  have hq : (s.streams.map (fun z => cn p z.queue)).sum = 0 := by
    rw [List.sum_eq_zero_iff_forall_eq_nat]
    intro x hx
    obtain ⟨z, hz, rfl⟩ := List.mem_map.mp hx
    obtain ⟨k, hk⟩ := List.mem_iff_getElem?.mp hz
    rw [hg.queues k z hk (by rw [hw]; simp)]
    rfl
  have hc : (s.calls.map (fun c => cn p (msgs c.2))).sum = 0 := by
    rw [List.sum_eq_zero_iff_forall_eq_nat]
    intro x hx
    obtain ⟨⟨c, pc⟩, hz, rfl⟩ := List.mem_map.mp hx
    obtain ⟨k, hk⟩ := List.mem_iff_getElem?.mp hz
    by_contra hne
    obtain ⟨u, hu⟩ := mem_of_cn (Nat.pos_of_ne_zero hne)
    have := requestedBy_unique hp (hmsg.msgC k c pc hk (p, u) hu).2
    subst this
    rw [hover c pc hk] at hu
    simp [msgs] at hu
  have : 0 < (Sess.stored s.trace).count p := by
    simp only [Sess.occ] at h1
    omega
  exact List.count_pos_iff.mp this

end Verif.Runner.Sess
