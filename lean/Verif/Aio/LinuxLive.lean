import Verif.Aio.LinuxProps

/-!
# C38: the requests can always be completed
-/

namespace Verif.Aio.Linux

/-- A call that has requests left is not over. -/
def Shape (s : State) : Prop := ∀ u ∈ s.subs, u.todo ≠ [] → u.pc ≠ .finished ∧ u.pc ≠ .failed

theorem Shape.set {s : State} (h : Shape s) {j : Nat} {w : Sub} (hw : w.todo ≠ [] → w.pc ≠ .finished ∧ w.pc ≠ .failed) :
    ∀ u ∈ s.subs.set j w, u.todo ≠ [] → u.pc ≠ .finished ∧ u.pc ≠ .failed := by
  intro u hu
  rcases mem_set_cases hu with rfl | hu
  · exact hw
  · exact h u hu

theorem Shape.step {s : State} (h : Shape s) (a : Act) : Shape (s.step a) := by
  cases a <;> unfold State.step <;> dsimp only
  case call n =>
    split
    · exact h
    · intro u hu ht
      simp only [List.mem_append, List.mem_singleton] at hu
      rcases hu with hu | rfl
      · exact h u hu ht
      · simp only
        split
        · rename_i h0; subst h0; exact absurd rfl ht
        · simp
  case submit j k =>
    split
    · split
      · exact h.set (by simp)
      · refine h.set (fun hw => ?_)
        simp only at hw ⊢
        rw [if_neg hw]; simp
    · exact h
  case submitError j =>
    split
    · exact h.set (fun hw => absurd rfl hw)
    · exact h
  case lockWait j =>
    split
    · exact h.set (by simp)
    · exact h
  case wake j =>
    split
    · refine h.set (fun _ => ?_)
      simp only
      split <;> simp
    · exact h
  case reap es => split <;> (try split) <;> exact h
  case reapError e => split <;> exact h
  case stop => exact h
  case loop =>
    split
    · intro u hu
      obtain ⟨w, hw, rfl⟩ := List.mem_map.mp hu
      have := h w hw
      unfold Sub.signal
      split
      · simp
      · exact this
    all_goals exact h

theorem Shape.run {s : State} (h : Shape s) (acts : List Act) : Shape (s.run acts) := by
  induction acts generalizing s with
  | nil => exact h
  | cons a acts ih => exact ih (h.step a)

/-- Steps by which the work goes on: no new request, no error -/
def forward : Act → Bool
  | .submit _ _ | .wake _ | .reap _ | .loop | .stop => true
  | _ => false

/-- What is known of the states of the prompt schedules -/
structure Sane (s : State) : Prop where
  inv : Inv s
  awake : Awake s
  shape : Shape s
  cap : 0 < s.cap
  next : s.next < 2 ^ 64

theorem step_next_lost (s : State) (a : Act) (ha : forward a = true ∨ ∃ j, a = .lockWait j) :
    (s.step a).next = s.next ∧ (s.step a).lost = s.lost := by
  rcases ha with ha | ⟨j, rfl⟩
  · cases a <;> simp only [forward, Bool.false_eq_true] at ha <;> unfold State.step <;> dsimp only
    case stop => exact ⟨rfl, rfl⟩
    case reap e => split <;> (try split) <;> exact ⟨rfl, rfl⟩
    all_goals (split <;> (try split) <;> exact ⟨rfl, rfl⟩)
  · unfold State.step
    dsimp only
    split <;> exact ⟨rfl, rfl⟩

/-- `s'` can be reached from `s`. -/
def Leads (s s' : State) : Prop :=
  ∃ more, (∀ a ∈ more, forward a = true) ∧ s' = s.run (prompt more)

theorem Leads.refl (s : State) : Leads s s := ⟨[], by simp, rfl⟩

theorem prompt_append (a b : List Act) : prompt (a ++ b) = prompt a ++ prompt b := by
  simp [prompt]

theorem run_append (s : State) (a b : List Act) : s.run (a ++ b) = (s.run a).run b := by
  simp [State.run]

theorem Leads.trans {s s' s'' : State} (h : Leads s s') (h' : Leads s' s'') : Leads s s'' := by
  obtain ⟨a, ha, rfl⟩ := h
  obtain ⟨b, hb, rfl⟩ := h'
  refine ⟨a ++ b, ?_, by rw [prompt_append, run_append]⟩
  intro x hx
  rcases List.mem_append.mp hx with hx | hx
  · exact ha x hx
  · exact hb x hx

theorem Leads.one (s : State) (a : Act) (ha : forward a = true) (h1 : ∀ j k, a ≠ .submit j k) : Leads s (s.step a) := by
  refine ⟨[a], by simpa using ha, ?_⟩
  cases a <;> simp_all [prompt, State.run, forward]

theorem Leads.submit (s : State) (j k : Nat) : Leads s ((s.step (.submit j k)).step (.lockWait j)) :=
  ⟨[.submit j k], by simp [forward], by simp [prompt, State.run]⟩

theorem prompt_mem {acts : List Act} (h : ∀ a ∈ acts, forward a = true) :
    ∀ a ∈ prompt acts, forward a = true ∨ ∃ j, a = .lockWait j := by
  intro a ha
  obtain ⟨b, hb, hab⟩ := List.mem_flatMap.mp ha
  have := h b hb
  cases b <;> simp_all [forward]
  rcases hab with rfl | rfl <;> simp

theorem run_next_lost (acts : List Act) (s : State) (ha : ∀ a ∈ acts, forward a = true ∨ ∃ j, a = .lockWait j) :
    (s.run acts).next = s.next ∧ (s.run acts).lost = s.lost := by
  induction acts generalizing s with
  | nil => exact ⟨rfl, rfl⟩
  | cons a acts ih =>
    have h1 := step_next_lost s a (ha a (by simp))
    have h2 := ih (s.step a) (fun b hb => ha b (by simp [hb]))
    exact ⟨h2.1.trans h1.1, h2.2.trans h1.2⟩

theorem run_cap (acts : List Act) (s : State) : (s.run acts).cap = s.cap := by
  induction acts generalizing s with
  | nil => rfl
  | cons a acts ih => exact (ih (s.step a)).trans (step_cap s a)

theorem Sane.leads {s s' : State} (h : Sane s) (hl : Leads s s') :
    Sane s' ∧ s'.next = s.next ∧ s'.lost = s.lost := by
  obtain ⟨more, hm, rfl⟩ := hl
  have hp := prompt_mem hm
  have hnl := run_next_lost (prompt more) s hp
  refine ⟨⟨h.inv.run _ ?_ (by rw [hnl.1]; exact h.next), h.awake.run h.cap more, h.shape.run _,
    by rw [run_cap]; exact h.cap, by rw [hnl.1]; exact h.next⟩, hnl⟩
  intro e he
  rcases hp _ he with h1 | ⟨j, h1⟩
  · cases h1
  · cases h1

/-- The completion thread comes back to the condition of its loop, and the queue and the remaining requests are the same. -/
theorem notify_all (es : List Nat) : ∀ (s : State) (n : Nat), s.loop = .notifying es n →
    ∃ s', Leads s s' ∧ s'.loop = .head ∧ s'.kernel = s.kernel ∧ s'.subs = s.subs ∧ s'.waiting = s.waiting := by
  induction es with
  | nil =>
    intro s n hl
    refine ⟨s.step .loop, Leads.one s .loop rfl (by simp), ?_⟩
    simp [State.step, hl]
  | cons e es ih =>
    intro s n hl
    obtain ⟨s', h1, h2, h3, h4, h5⟩ := ih (s.step .loop) n (by simp [State.step, hl])
    refine ⟨s', (Leads.one s .loop rfl (by simp)).trans h1, h2, ?_⟩
    rw [h3, h4, h5]
    simp [State.step, hl]

theorem to_head {s : State} (hx : s.loop ≠ .exited) :
    ∃ s', Leads s s' ∧ s'.loop = .head ∧ s'.kernel = s.kernel ∧ todos s'.subs = todos s.subs := by
  cases hl : s.loop with
  | head => exact ⟨s, Leads.refl s, hl, rfl, rfl⟩
  | exited => exact absurd hl hx
  | notifying es n =>
    obtain ⟨s', h1, h2, h3, h4, -⟩ := notify_all es s n hl
    exact ⟨s', h1, h2, h3, by rw [h4]⟩
  | got es =>
    obtain ⟨s', h1, h2, h3, h4, -⟩ := notify_all es (s.step .loop) es.length (by simp [State.step, hl])
    refine ⟨s', (Leads.one s .loop rfl (by simp)).trans h1, h2, ?_, ?_⟩
    · rw [h3]; simp [State.step, hl]
    · rw [h4]; simp [State.step, hl, todos_signal]

/-- As long as a request is not counted as completed or failed, the loop goes on. -/
theorem not_finished {s : State} (h : Sane s) (hl : s.loop = .head)
    (hp : 0 < s.kernel.length + (todos s.subs).length) : s.finished = false := by
  have htot := h.inv.total
  have hc := h.inv.comp
  have hf := h.inv.fail
  have hs := h.inv.sub
  have hn := h.next
  rw [hl] at htot hc
  simp only [LPc.pend, LPc.batch, List.length_nil] at htot hc
  unfold State.finished
  rw [Bool.and_eq_false_iff]
  right
  simp only [Bool.not_eq_false', decide_eq_true_eq, UInt64.lt_iff_toNat_lt, UInt64.toNat_add]
  omega

/-- All the requests in the kernel are completed. -/
theorem drain {s : State} (h : Sane s) (hx : s.loop ≠ .exited) :
    ∃ s', Leads s s' ∧ s'.loop = .head ∧ s'.kernel = [] ∧ todos s'.subs = todos s.subs := by
  obtain ⟨s1, h1, h2, h3, h4⟩ := to_head hx
  by_cases hk : s1.kernel = []
  · exact ⟨s1, h1, h2, hk, h4⟩
  · have hs1 := (h.leads h1).1
    have hfin := not_finished hs1 h2 (by have := List.length_pos_iff.mpr hk; omega)
    have hstep : s1.step (.reap s1.kernel) = { s1 with kernel := [], loop := .got s1.kernel } := by
      have e1 : s1.kernel.filter (fun i => s1.kernel.contains i) = s1.kernel := by
        rw [List.filter_eq_self]; intro a ha; simpa using ha
      have e2 : s1.kernel.filter (fun i => !s1.kernel.contains i) = [] := by
        rw [List.filter_eq_nil_iff]; intro a ha; simpa using ha
      simp only [State.step, h2, hfin, if_true, Bool.false_eq_true, if_false, e1, e2, hk]
    obtain ⟨s2, g1, g2, g3, g4⟩ := to_head (s := s1.step (.reap s1.kernel)) (by rw [hstep]; simp)
    refine ⟨s2, h1.trans ((Leads.one s1 _ rfl (by simp)).trans g1), g2, ?_, ?_⟩
    · rw [g3, hstep]
    · rw [g4, hstep]; exact h4

/-- One more request is submitted. -/
theorem submit_one {s : State} (h : Sane s) (hl : s.loop = .head) (hk : s.kernel = []) (ht : todos s.subs ≠ []) :
    ∃ s', Leads s s' ∧ s'.loop = .head ∧ (todos s'.subs).length < (todos s.subs).length := by
  have hw : s.waiting = false := by
    cases hw : s.waiting with
    | false => rfl
    | true =>
      rcases h.awake.wait hw with h1 | ⟨es, h1⟩
      · exact absurd hk h1
      · rw [hl] at h1; cases h1
  obtain ⟨i, hi⟩ := List.exists_mem_of_ne_nil _ ht
  obtain ⟨u, hu, hiu⟩ := List.mem_flatMap.mp hi
  obtain ⟨j, hj⟩ := List.mem_iff_getElem?.mp hu
  obtain ⟨todo, pc⟩ := u
  have htodo : todo ≠ [] := List.ne_nil_of_mem hiu
  have hjl := (List.getElem?_eq_some_iff.mp hj).1
  obtain ⟨hf1, hf2⟩ := h.shape _ hu htodo
  have key : ∀ s1 : State, s1.loop = .head → s1.kernel = [] → 0 < s1.cap → s1.subs[j]? = some ⟨todo, .trying⟩ →
      ∃ s', Leads s1 s' ∧ s'.loop = .head ∧ (todos s'.subs).length < (todos s1.subs).length := by
    intro s1 e1 e2 e3 e4
    have hjl1 := (List.getElem?_eq_some_iff.mp e4).1
    refine ⟨_, Leads.submit s1 j 1, ?_⟩
    have hs1 : s1.step (.submit j 1) =
        { s1 with kernel := todo.take 1,
                  subs := s1.subs.set j ⟨todo.drop 1, if todo.drop 1 = [] then .finished else .trying⟩ } := by
      have hr : min (max 1 1) (s1.cap - s1.kernel.length) = 1 := by rw [e2]; simp; omega
      simp only [State.step, e4]
      rw [if_neg (by rw [e2]; simp; omega), hr, e2, List.nil_append]
    have hs2 : (s1.step (.submit j 1)).step (.lockWait j) = s1.step (.submit j 1) := by
      rw [hs1]
      simp only [State.step, List.getElem?_set_self hjl1]
      by_cases hd : todo.drop 1 = [] <;> simp only [hd, if_true, if_false]
    rw [hs2, hs1]
    refine ⟨e1, ?_⟩
    have hlen : ∀ (subs : List Sub) (j : Nat) (w u : Sub), subs[j]? = some u →
        (todos (subs.set j w)).length + u.todo.length = (todos subs).length + w.todo.length := by
      intro subs
      induction subs with
      | nil => intro j w u h; simp at h
      | cons a subs ih =>
        intro j w u h
        cases j with
        | zero => simp at h; subst h; simp [todos]; omega
        | succ j =>
          simp at h
          have := ih j w u h
          simp [todos] at this ⊢
          omega
    have h1 := hlen s1.subs j ⟨todo.drop 1, if todo.drop 1 = [] then .finished else .trying⟩ _ e4
    have h2 : 0 < todo.length := List.length_pos_iff.mpr htodo
    simp only [List.length_drop] at h1
    simp only
    omega
  cases pc with
  | trying => exact key s hl hk h.cap hj
  | eagain => exact absurd rfl (h.awake.noeagain _ hu)
  | finished => exact absurd rfl hf1
  | failed => exact absurd rfl hf2
  | sleeping b =>
    have hs : s.step (.wake j) = { s with subs := s.subs.set j ⟨todo, .trying⟩ } := by
      simp only [State.step, hj, hw]
      rfl
    obtain ⟨s', g1, g2, g3⟩ := key (s.step (.wake j)) (by rw [hs]; exact hl) (by rw [hs]; exact hk)
      (by rw [hs]; exact h.cap) (by rw [hs]; exact List.getElem?_set_self hjl)
    refine ⟨s', (Leads.one s (.wake j) rfl (by simp)).trans g1, g2, ?_⟩
    have : todos (s.step (.wake j)).subs = todos s.subs := by
      rw [hs]
      obtain ⟨l1, l2, e, hlen⟩ : ∃ l1 l2, s.subs = l1 ++ (⟨todo, .sleeping b⟩ : Sub) :: l2 ∧ l1.length = j := by
        refine ⟨s.subs.take j, s.subs.drop (j + 1), ?_, by simp; omega⟩
        rw [← (List.getElem?_eq_some_iff.mp hj).2]
        simp
      rw [e, ← hlen, List.set_append_right _ _ (Nat.le_refl _)]
      simp [todos]
    rw [this] at g3
    exact g3

theorem submit_all (n : Nat) : ∀ {s : State}, Sane s → s.loop ≠ .exited → (todos s.subs).length = n →
    ∃ s', Leads s s' ∧ s'.loop = .head ∧ s'.kernel = [] ∧ todos s'.subs = [] := by
  induction n using Nat.strongRecOn with
  | ind n ih =>
    intro s h hx hn
    obtain ⟨s1, h1, h2, h3, h4⟩ := drain h hx
    by_cases ht : todos s1.subs = []
    · exact ⟨s1, h1, h2, h3, ht⟩
    · have hs1 := (h.leads h1).1
      obtain ⟨s2, g1, g2, g3⟩ := submit_one hs1 h2 h3 ht
      have hs2 := (hs1.leads g1).1
      obtain ⟨s3, k1, k2⟩ := ih _ (by rw [← hn, ← h4]; exact g3) hs2 (by rw [g2]; simp) rfl
      exact ⟨s3, h1.trans (g1.trans k1), k2⟩

/-- **C38**, partial: no submission and no wait is blocked forever. If no completion is reaped between a failed `io_submit` and the
beginning of the wait, and without an error of `io_getevents`, then from every state that can be reached, without further calls
and errors, `wait_completions` can return, and then every request has been notified, except those for which `io_submit` had
returned an error before. Missing: the other schedules, for which it is false, see `C38_lost_wakeup` and `C38_getevents_error`. -/
theorem C38_completes_partial (cap : Nat) (hcap : 0 < cap) (acts : List Act) (ha : ∀ e, Act.reapError e ∉ acts)
    (hn : ((init cap).run (prompt acts)).next < 2 ^ 64) :
    ∃ more, (∀ n, Act.call n ∉ more) ∧ (∀ j, Act.submitError j ∉ more) ∧ (∀ e, Act.reapError e ∉ more) ∧
      ((init cap).run (prompt (acts ++ more))).waited ∧
      ∀ i < ((init cap).run (prompt acts)).next,
        ((init cap).run (prompt (acts ++ more))).notified.count i +
          ((init cap).run (prompt acts)).lost.count i = 1 := by
  have ha' : ∀ e, Act.reapError e ∉ prompt acts := by
    intro e he
    obtain ⟨b, hb, hab⟩ := List.mem_flatMap.mp he
    cases b <;> simp at hab
    subst hab
    exact ha _ hb
  have h0 : Awake (init cap) := ⟨by simp [init], by simp [init], by simp [init]⟩
  have hsane : Sane ((init cap).run (prompt acts)) :=
    ⟨(inv_init cap).run _ ha' hn, h0.run hcap acts, Shape.run (s := init cap) (by simp [Shape, init]) _,
      by rw [run_cap]; exact hcap, hn⟩
  have hend : ∃ s', Leads ((init cap).run (prompt acts)) s' ∧ s'.waited := by
    generalize (init cap).run (prompt acts) = s at *
    by_cases hx : s.loop = .exited
    · exact ⟨s, Leads.refl s, (hsane.inv.exit hx).1, hx⟩
    · obtain ⟨s1, h1, h2, h3, h4⟩ := submit_all _ hsane hx rfl
      have hs1 := (hsane.leads h1).1
      refine ⟨(s1.step .stop).step (.reap []), h1.trans ((Leads.one s1 .stop rfl (by simp)).trans
        (Leads.one _ (.reap []) rfl (by simp))), ?_⟩
      have hfin : (s1.step .stop).finished = true := by
        have htot := hs1.inv.total
        have hc := hs1.inv.comp
        have hf := hs1.inv.fail
        have hs := hs1.inv.sub
        have hnx := hs1.next
        rw [h2, h3, h4] at htot
        rw [h2] at hc
        simp only [LPc.pend, LPc.batch, List.length_nil] at htot hc
        unfold State.finished State.step
        simp only [Bool.true_and, Bool.not_eq_true', decide_eq_false_iff_not, UInt64.lt_iff_toNat_lt, UInt64.toNat_add]
        omega
      have hl : (s1.step .stop).loop = .head := h2
      have hst : (s1.step .stop).stop = true := rfl
      generalize s1.step .stop = s2 at *
      unfold State.waited State.step
      simp only [hl, hfin, if_true]
      exact ⟨hst, trivial⟩
  obtain ⟨s', hl, hw⟩ := hend
  have hnl := (hsane.leads hl).2
  obtain ⟨more, hm, rfl⟩ := hl
  have hno : ∀ a, forward a = false → a ∉ more := fun a hf h => by rw [hm a h] at hf; cases hf
  rw [← run_append, ← prompt_append] at hw hnl
  refine ⟨more, fun n => hno _ rfl, fun j => hno _ rfl, fun e => hno _ rfl, hw, ?_⟩
  have hall : ∀ e, Act.reapError e ∉ prompt (acts ++ more) := by
    intro e he
    rw [prompt_append] at he
    rcases List.mem_append.mp he with he | he
    · exact ha' e he
    · rcases prompt_mem hm _ he with h1 | ⟨j, h1⟩ <;> cases h1
  have hfin := (C38_wait_partial cap (prompt (acts ++ more)) hall (by rw [hnl.1]; exact hn) hw).2.2
  intro i hi
  rw [← hnl.2]
  exact hfin i (by rw [hnl.1]; exact hi)

/-- In the middle of the sample, when two submissions sleep -/
example : ∃ more, ((init 2).run (prompt (sample.take 6 ++ more))).waited ∧
    ∀ i < 4, ((init 2).run (prompt (sample.take 6 ++ more))).notified.count i = 1 := by
  obtain ⟨more, -, -, -, hw, h⟩ := C38_completes_partial 2 (by decide) (sample.take 6) (by simp [sample]) (by decide)
  refine ⟨more, hw, fun i hi => ?_⟩
  have hn : ((init 2).run (prompt (sample.take 6))).next = 4 := by decide
  have := h i (by rw [hn]; exact hi)
  have hl : ((init 2).run (prompt (sample.take 6))).lost = [] := by decide
  rw [hl] at this
  simpa using this

end Verif.Aio.Linux
