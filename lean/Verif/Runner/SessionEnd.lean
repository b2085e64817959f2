import Verif.Runner.SessionSearch

/-!
# Update sessions: how the calls end
-/

namespace Verif.Runner.Sess

open Verif

variable {Kw : Type} {S : Scheme Kw}

/-- The calls and their ends in the trace -/
structure Ended (s : State S) : Prop where
  called : ∀ n c, Event.called n c ∈ s.trace ↔ ∃ pc, s.calls[n]? = some (c, pc)
  returned : ∀ n, Event.returned n ∈ s.trace →
    (∃ c, s.calls[n]? = some (c, .over)) ∧ Event.threw n ∉ s.trace

theorem ended_init : Ended (init S) := by
  constructor <;> simp [init]

/-- How a step ends calls -/
theorem tr_end {s s' : State S} {g : Bool} (h : Tr s g s') :
    ((∀ n, Event.returned n ∈ s'.trace ↔ Event.returned n ∈ s.trace) ∧
      (∀ n, Event.threw n ∈ s'.trace ↔ Event.threw n ∈ s.trace)) ∨
    ∃ (n : Nat) (c : Call Kw) (pc : Pc S), s.calls[n]? = some (c, pc) ∧ pc ≠ .over ∧
      s'.calls = s.calls.set n (c, .over) ∧
      (((∀ m, Event.returned m ∈ s'.trace ↔ Event.returned m ∈ s.trace ∨ m = n) ∧
        (∀ m, Event.threw m ∈ s'.trace ↔ Event.threw m ∈ s.trace)) ∨
       ((∀ m, Event.returned m ∈ s'.trace ↔ Event.returned m ∈ s.trace) ∧
        (∀ m, Event.threw m ∈ s'.trace ↔ Event.threw m ∈ s.trace ∨ m = n))) := by
  cases h with
  | ret _ n c pc w u x hn hr =>
    refine .inr ⟨n, c, pc, hn, by cases hr <;> simp, rfl, .inl (by simp)⟩
  | throw _ n c pc hn ht =>
    refine .inr ⟨n, c, pc, hn, by cases ht <;> simp, rfl, .inr (by simp)⟩
  | rpc _ n c m hn => exact .inr ⟨n, c, _, hn, by simp, rfl, .inl (by simp)⟩
  | rpcLost n c m hn => exact .inr ⟨n, c, _, hn, by simp, rfl, .inl (by simp)⟩
  | _ => exact .inl (by simp)

theorem mem_set_iff {l : List (Call Kw × Pc S)} {n : Nat} {c : Call Kw} {pc : Pc S} (pc' : Pc S)
    (hn : l[n]? = some (c, pc)) (m : Nat) (d : Call Kw) :
    (∃ q, (l.set n (c, pc'))[m]? = some (d, q)) ↔ ∃ q, l[m]? = some (d, q) := by
  have hl := (List.getElem?_eq_some_iff.mp hn).1
  by_cases hm : m = n
  · subst hm
    rw [List.getElem?_set_self hl, hn]
    simp
  · rw [List.getElem?_set_ne (fun e => hm e.symm)]

theorem tr_called {s s' : State S} {g : Bool} (h : Tr s g s')
    (hc : ∀ n c, Event.called n c ∈ s.trace ↔ ∃ pc, s.calls[n]? = some (c, pc)) :
    ∀ n c, Event.called n c ∈ s'.trace ↔ ∃ pc, s'.calls[n]? = some (c, pc) := by
  intro m d
  cases h with
  | call _ c =>
    simp only [List.mem_append, hc, List.mem_singleton, Event.called.injEq, List.getElem?_append]
    split
    · rename_i hl
      have : m ≠ s.calls.length := by omega
      simp [this]
    · rename_i hl
      rw [List.getElem?_eq_none (by omega)]
      by_cases he : m = s.calls.length
      · subst he; simp [eq_comm]
      · rw [List.getElem?_eq_none (by simp; omega)]
        simp [he]
  | move _ n c pc pc' hn hm => exact (hc m d).trans (mem_set_iff pc' hn m d).symm
  | ret _ n c pc w u x hn hr => simpa [hc] using (mem_set_iff .over hn m d).symm
  | throw _ n c pc hn ht => simpa [hc] using (mem_set_iff .over hn m d).symm
  | request _ n c pc l pc' hn ha => simpa [hc] using (mem_set_iff _ hn m d).symm
  | rpc _ n c x hn => simpa [hc] using (mem_set_iff .over hn m d).symm
  | rpcLost n c x hn => simpa [hc] using (mem_set_iff .over hn m d).symm
  | lock _ n c ms hn hm => exact (hc m d).trans (mem_set_iff _ hn m d).symm
  | write _ n c x ms k z hn hw hz hd hb => exact (hc m d).trans (mem_set_iff _ hn m d).symm
  | opened _ n c hn hw => exact (hc m d).trans (mem_set_iff _ hn m d).symm
  | reopened _ n c k hn hw => exact (hc m d).trans (mem_set_iff _ hn m d).symm
  | writesDone _ n c k z hn hw hz hd => exact (hc m d).trans (mem_set_iff _ hn m d).symm
  | down _ n c hn => exact (hc m d).trans (mem_set_iff _ hn m d).symm
  | search _ n w hn => simpa [hc] using (mem_set_iff .over hn m d).symm
  | recv => simpa using hc m d
  | «break» => exact hc m d
  | nullWrite | nullDone | nullWait | lateWrite | lateDone => exact hc m d

theorem tr_over {s s' : State S} {g : Bool} (hb : Base s) (h : Tr s g s') {n : Nat} {c : Call Kw}
    (hn : s.calls[n]? = some (c, .over)) : s'.calls[n]? = some (c, .over) := by
  rcases tr_quiet hb h with ⟨st, q⟩ | ⟨m, d, pc, l, pc', hm, ha, rfl⟩
  · exact q.over n c hn
  · have : m ≠ n := by
      rintro rfl
      rw [hn] at hm
      cases hm
      cases ha
    rw [List.getElem?_set_ne this]
    exact hn

theorem Ended.tr {s s' : State S} {g : Bool} (h : Ended s) (hb : Base s) (ht : Tr s g s') : Ended s' := by
  refine ⟨tr_called ht h.called, ?_⟩
  intro n hn
  rcases tr_end ht with ⟨h1, h2⟩ | ⟨m, c, pc, hm, hpc, hs, ⟨h1, h2⟩ | ⟨h1, h2⟩⟩
  · rw [h1] at hn
    obtain ⟨⟨c, hc⟩, h3⟩ := h.returned n hn
    exact ⟨⟨c, tr_over hb ht hc⟩, by rw [h2]; exact h3⟩
  · rw [h1] at hn
    rcases hn with hn | rfl
    · obtain ⟨⟨c, hc⟩, h3⟩ := h.returned n hn
      exact ⟨⟨c, tr_over hb ht hc⟩, by rw [h2]; exact h3⟩
    · refine ⟨⟨c, ?_⟩, ?_⟩
      · rw [hs, List.getElem?_set_self (List.getElem?_eq_some_iff.mp hm).1]
      · rw [h2]
        intro h3
        obtain ⟨⟨d, hd⟩, -⟩ := hb.threw n h3
        rw [hm] at hd
        cases hd
        exact hpc rfl
  · rw [h1] at hn
    obtain ⟨⟨c', hc⟩, h3⟩ := h.returned n hn
    refine ⟨⟨c', tr_over hb ht hc⟩, ?_⟩
    rw [h2]
    rintro (h4 | rfl)
    · exact h3 h4
    · rw [hm] at hc
      cases hc
      exact hpc rfl

theorem Ended.run {s : State S} (h : Ended s) (hb : Base s) (acts : List (Act Kw)) : Ended (s.run acts) := by
  induction acts generalizing s with
  | nil => exact h
  | cons a acts ih =>
    refine ih ?_ (hb.step a)
    rcases step_tr s a with h0 | ⟨-, h0⟩
    · rw [h0]; exact h
    · exact h.tr hb h0

variable [DecidableEq Kw]

/-- While there is a session, there is a stream, unless the session is being started. -/
def Opened (s : State S) : Prop :=
  (scan s.trace).isOpen = true → s.writer.isSome = true ∨ ∃ n, (n, Call.start) ∈ (scan s.trace).active

theorem Opened.tr {s s' : State S} {g : Bool} (h : Opened s) (hx : Ex s) (ht : Tr s g s') : Opened s' := by
  intro ho
  -- the call `n`, which is not the start of a session, is over
  have hend : ∀ (n : Nat) (c : Call Kw) (pc : Pc S), s.calls[n]? = some (c, pc) → c ≠ .start →
      s.writer.isSome = true ∨ (∃ m, (m, Call.start) ∈ (scan s.trace).active) →
      s.writer.isSome = true ∨ ∃ m, (m, Call.start) ∈ (scan s.trace).active.filter (·.1 ≠ n) := by
    rintro n c pc hn hc (h1 | ⟨m, hm⟩)
    · exact .inl h1
    · refine .inr ⟨m, List.mem_filter.mpr ⟨hm, ?_⟩⟩
      have : m ≠ n := by
        rintro rfl
        obtain ⟨q, hq, -⟩ := (hx.act m _).mp hm
        rw [hn] at hq
        cases hq
        exact hc rfl
      simpa using this
  cases ht with
  | call _ c =>
    rw [next_called] at ho ⊢
    by_cases hc : c = .start
    · exact .inr ⟨_, by rw [hc]; simp; right; rfl⟩
    · have : (scan s.trace).isOpen = true := by simpa [hc] using ho
      rcases h this with h1 | ⟨m, hm⟩
      · exact .inl h1
      · exact .inr ⟨m, by simp [hm]⟩
  | ret _ n c pc w u x hn hr =>
    rw [next_returned] at ho ⊢
    have ho1 : (scan s.trace).isOpen = true := by simp at ho; exact ho.1
    have ho2 : (n, Call.finish) ∉ (scan s.trace).active := by simp at ho; exact ho.2
    cases hr with
    | write => exact hend n c _ hn (by rintro rfl; have := (hx.shape n _ _ hn : _ ∧ _).1; cases this) (h ho1)
    | start hw => exact .inl hw
    | up =>
      obtain ⟨-, k, z, hk, -⟩ := hx.loc n c _ hn
      exact .inl (by rw [hk]; rfl)
    | finish hw => exact absurd ((hx.act n _).mpr ⟨_, hn, by simp⟩) ho2
    | reset =>
      have : c = .finish := hx.shape n c _ hn
      subst this
      exact absurd ((hx.act n _).mpr ⟨_, hn, by simp⟩) ho2
  | throw _ n c pc hn ht =>
    rw [next_threw] at ho ⊢
    refine hend n c pc hn ?_ (h ho)
    cases ht with
    | check _ ms hup =>
      obtain ⟨w, i, rfl | rfl⟩ := (hx.shape n c _ hn : ∃ w i, c = .insert w i ∨ c = .insertIn w i) <;> simp
    | list => simp
  | request _ n c pc l pc' hn ha =>
    rw [scan_requested] at ho ⊢
    exact h ho
  | rpc _ n c m hn =>
    rw [next_returned, next_stored] at ho ⊢
    obtain ⟨w, i, rfl⟩ := (hx.shape n c _ hn : ∃ w i, c = .insert w i)
    exact hend n _ _ hn (by simp) (h (by simp at ho; exact ho.1))
  | rpcLost n c m hn =>
    rw [next_returned] at ho ⊢
    obtain ⟨w, i, rfl⟩ := (hx.shape n c _ hn : ∃ w i, c = .insert w i)
    exact hend n _ _ hn (by simp) (h (by simp at ho; exact ho.1))
  | search _ n w hn =>
    rw [next_found] at ho ⊢
    exact hend n _ _ hn (by simp) (h ho)
  | recv =>
    rw [next_stored] at ho ⊢
    exact h ho
  | opened | reopened => exact .inl rfl
  | move | lock | write | writesDone | down | «break» | nullWrite | nullDone | nullWait | lateWrite | lateDone =>
    exact h ho

/-- Only `insert_in_session` throws, and only without a session. -/
theorem tr_threw {s s' : State S} {g : Bool} (h : Opened s) (hx : Ex s) (he : (scan s.trace).exclusive = true)
    (ht : Tr s g s') : ∃ u, s'.trace = s.trace ++ u ∧ ∀ n, Event.threw n ∈ u → u = [.threw n] ∧
      (scan s.trace).isOpen = false ∧
      ∃ c pc, s.calls[n]? = some (c, pc) ∧ ((∃ w i, c = .insertIn w i) ∨ ∃ l, c = .insertList l) := by
  have key : ∀ (m : Nat) c pc, s.calls[m]? = some (c, pc) → pc ≠ .over → c.isSession = false →
      c.isSearch = false → s.isUp = false → s.writer = none ∧ (scan s.trace).isOpen = false := by
    intro m c pc hm h1 h2 h3 hup
    have hid := hx.idle (hx.noMid he hm h1 h2 h3)
    have hw : s.writer = none := by
      have := hid.1
      rw [hup] at this
      simpa using this.symm
    refine ⟨hw, ?_⟩
    by_contra ho
    rcases h (by simpa using ho) with h4 | ⟨k, hk⟩
    · rw [hw] at h4
      cases h4
    · obtain ⟨q, hq, h5⟩ := (hx.act k _).mp hk
      have := hx.apart he hq hm h5 h1 rfl h3
      subst this
      rw [hm] at hq
      cases hq
      cases h2
  cases ht with
  | throw _ m c pc hm ht =>
    refine ⟨_, rfl, fun n hn => ?_⟩
    rw [List.mem_singleton, Event.threw.injEq] at hn
    subst hn
    cases ht with
    | check _ ms hup =>
      obtain ⟨w, i, rfl | rfl⟩ := (hx.shape n c _ hm : ∃ w i, c = .insert w i ∨ c = .insertIn w i)
      · obtain ⟨hw, -⟩ := key n _ _ hm (by simp) rfl rfl hup
        have := (hx.loc n _ _ hm : (∃ w i, _ = Call.insert w i) → _) ⟨w, i, rfl⟩
        rw [hw] at this
        cases this
      · exact ⟨rfl, (key n _ _ hm (by simp) rfl rfl hup).2, _, _, hm, .inl ⟨w, i, rfl⟩⟩
    | list l hup => exact ⟨rfl, (key n _ _ hm (by simp) rfl rfl hup).2, _, _, hm, .inr ⟨l, rfl⟩⟩
  | request =>
    refine ⟨_, rfl, fun n hn => ?_⟩
    obtain ⟨x, -, hx⟩ := List.mem_map.mp hn
    cases hx
  | _ => first
    | exact ⟨[], (List.append_nil _).symm, by simp⟩
    | exact ⟨_, rfl, by simp⟩
    | exact ⟨_, List.append_assoc _ _ _, by simp⟩

theorem exclusive_prefix {p q : List (Event Kw)} (h : Exclusive (p ++ q)) : Exclusive p :=
  fun a b hab => h a (b ++ q) (by rw [hab, List.append_assoc])

theorem Opened.run {s : State S} (h : Opened s) (hx : Ex s) (acts : List (Act Kw))
    (he : Exclusive (s.run acts).trace) : Opened (s.run acts) := by
  induction acts generalizing s with
  | nil => exact h
  | cons a acts ih =>
    have hx0 : Exclusive s.trace := by
      obtain ⟨u, hu⟩ := run_trace s (a :: acts)
      rw [hu] at he
      exact exclusive_prefix he
    refine ih ?_ (hx.step hx0 a).1 he
    rcases step_tr s a with h0 | ⟨-, h0⟩
    · rw [h0]; exact h
    · exact h.tr hx h0

/-- A call that throws in a trace -/
theorem threw_state {s : State S} (h : Opened s) (hx : Ex s) (acts : List (Act Kw)) (p q : List (Event Kw))
    (n : Nat) (hs : s.trace = []) (ht : (s.run acts).trace = p ++ .threw n :: q)
    (he : Exclusive (s.run acts).trace) :
    ∃ as, (s.run as).trace = p ∧ (scan p).isOpen = false ∧ ∃ c pc, (s.run as).calls[n]? = some (c, pc) ∧
      ((∃ w i, c = .insertIn w i) ∨ ∃ l, c = .insertList l) := by
  induction acts using List.reverseRecOn generalizing q with
  | nil => simp [State.run, hs] at ht
  | append_singleton acts a ih =>
    have hrun : s.run (acts ++ [a]) = (s.run acts).step a := by simp [State.run]
    rw [hrun] at ht he
    have he0 : Exclusive (s.run acts).trace := by
      obtain ⟨u, hu⟩ := step_trace (s.run acts) a
      rw [hu] at he
      exact exclusive_prefix he
    have hcase : ∃ u, ((s.run acts).step a).trace = (s.run acts).trace ++ u ∧
        ∀ n, Event.threw n ∈ u → u = [.threw n] ∧ (scan (s.run acts).trace).isOpen = false ∧
          ∃ c pc, (s.run acts).calls[n]? = some (c, pc) ∧ ((∃ w i, c = .insertIn w i) ∨ ∃ l, c = .insertList l) := by
      rcases step_tr (s.run acts) a with h0 | ⟨-, h0⟩
      · exact ⟨[], by rw [h0]; simp, by simp⟩
      · exact tr_threw (h.run hx acts he0) (hx.run acts he0).1 (he0 _ [] (by simp)) h0
    obtain ⟨u, hu, hc⟩ := hcase
    rw [hu] at ht
    have hlast : Event.threw n ∈ u → p = (s.run acts).trace → ∃ as, (s.run as).trace = p ∧
        (scan p).isOpen = false ∧ ∃ c pc, (s.run as).calls[n]? = some (c, pc) ∧
          ((∃ w i, c = .insertIn w i) ∨ ∃ l, c = .insertList l) := by
      intro h1 h2
      obtain ⟨-, h3, h4⟩ := hc n h1
      exact ⟨acts, h2.symm, by rw [h2]; exact h3, h4⟩
    rcases List.append_eq_append_iff.mp ht with ⟨x, h1, h2⟩ | ⟨x, h1, h2⟩
    · have hm : Event.threw n ∈ u := by rw [h2]; simp
      have h3 := (hc n hm).1
      rw [h3] at h2
      cases x with
      | nil => exact hlast hm (by rw [h1]; simp)
      | cons y x => simp at h2
    · cases x with
      | nil =>
        simp only [List.nil_append, List.append_nil] at h1 h2
        exact hlast (by rw [← h2]; simp) h1.symm
      | cons y x =>
        simp only [List.cons_append, List.cons.injEq] at h2
        obtain ⟨rfl, -⟩ := h2
        exact ih x h1 he0

end Verif.Runner.Sess
