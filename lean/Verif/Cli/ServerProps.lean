import Verif.Cli.Server

/-!
# C67: a server starts, serves in the mode asked for, and stops when told

Full statement: a server whose arguments, database and port can be used serves all searches in the mode asked
for on the command line; one that cannot start says so by its exit status; after SIGTERM, SIGINT or SIGQUIT,
at any time, the process ends with status 0, once the calls being worked on are done; nothing else ends it.

It does not hold: see the `_violated` theorems.
-/

namespace Verif.Cli.Server

/-! ## Specification -/

/-- The server can start: arguments `o`, database and port can be used. -/
structure Usable (e : Env) (o : ServerArgs) : Prop where
  args : serverArgs e.scheme e.args = .ok o
  dir : e.dirOk o.db = true
  port : e.portFree = true

/-- No signal comes before the handlers are installed (the first step of the main thread), none while its thread
writes a log message. -/
def fairSignals : List Ev → Bool
  | [] => true
  | .main :: evs => evs.all (· != .signal true)
  | _ :: _ => false

/-- The steps that the process itself makes: of the main thread, and ends of calls. -/
def ownSteps (evs : List Ev) : Nat := evs.countP (fun ev => ev == .main || ev == .finish)

/-! ## Invariant -/

/-- What holds of a server that can start, by the position of the main thread. -/
def Inv (o : ServerArgs) (s : State) : Prop :=
  match s.pc with
  | .init | .options =>
    s.async = true ∧ s.ptr = false ∧ s.started = false ∧ s.shut = false ∧ s.calls = 0 ∧ s.served = []
  | .construct | .build =>
    s.async = true ∧ s.ptr = false ∧ s.started = false ∧ s.shut = false ∧ s.calls = 0 ∧ s.served = [] ∧
      s.opts = o
  | .assign =>
    s.async = true ∧ s.ptr = false ∧ s.started = true ∧ s.shut = false ∧ s.opts = o ∧
      (∀ b ∈ s.served, b = true)
  | .setMode =>
    s.async = true ∧ s.ptr = true ∧ s.started = true ∧ s.opts = o ∧ (∀ b ∈ s.served, b = true)
  | .wait =>
    s.async = o.async ∧ s.ptr = true ∧ s.started = true ∧ s.opts = o ∧
      (o.async = true → ∀ b ∈ s.served, b = true)
  | .cleanup | .exited 0 =>
    s.async = o.async ∧ s.ptr = true ∧ s.started = true ∧ s.opts = o ∧
      (o.async = true → ∀ b ∈ s.served, b = true) ∧ s.shut = true ∧ s.calls = 0
  | _ => False

theorem inv_init (o : ServerArgs) : Inv o State.init := by simp [Inv, State.init]

theorem inv_step {e : Env} {o : ServerArgs} (hu : Usable e o) {s s' : State} {ev : Ev} (hi : Inv o s)
    (hst : step e s ev = some s') (hev : ev ≠ .signal true) (h0 : s.pc = .init → ev = .main) :
    Inv o s' ∧ s'.pc ≠ .init := by
  obtain ⟨pc, opts, async, ptr, started, shut, calls, served⟩ := s
  cases ev with
  | main =>
    cases pc with
    | init =>
      simp only [step, mainStep, Option.some.injEq] at hst
      subst hst; exact ⟨hi, by simp⟩
    | options =>
      simp only [step, mainStep, hu.args, Option.some.injEq] at hst
      subst hst
      simp only [Inv] at hi ⊢
      simp [hi]
    | construct =>
      simp only [step, mainStep, Option.some.injEq] at hst
      subst hst
      simp only [Inv] at hi
      obtain ⟨h1, h2, h3, h4, h5, h6, rfl⟩ := hi
      simp [Inv, hu.dir, h1, h2, h3, h4, h5, h6]
    | build =>
      simp only [step, mainStep, Option.some.injEq] at hst
      subst hst
      simp only [Inv] at hi
      simp [Inv, hi, hu.port]
    | assign =>
      simp only [step, mainStep, Option.some.injEq] at hst
      subst hst
      simp only [Inv] at hi
      exact ⟨⟨hi.1, rfl, hi.2.2.1, hi.2.2.2.2.1, hi.2.2.2.2.2⟩, by simp⟩
    | setMode =>
      simp only [step, mainStep, Option.some.injEq] at hst
      subst hst
      simp only [Inv] at hi
      exact ⟨⟨by rw [hi.2.2.2.1], hi.2.1, hi.2.2.1, hi.2.2.2.1, fun _ => hi.2.2.2.2⟩, by simp⟩
    | wait =>
      simp only [Inv] at hi
      obtain ⟨h1, h2, h3, h4, h5⟩ := hi
      simp only [step, mainStep, h3, Bool.not_true, Bool.false_eq_true, if_false] at hst
      split at hst
      · next hc =>
        simp only [Bool.and_eq_true, beq_iff_eq] at hc
        simp only [Option.some.injEq] at hst
        subst hst
        exact ⟨⟨h1, h2, rfl, h4, h5, hc.1, hc.2⟩, by simp⟩
      · exact absurd hst (by simp)
    | cleanup =>
      simp only [step, mainStep, Option.some.injEq] at hst
      subst hst
      exact ⟨hi, by simp⟩
    | exited n => simp [step, mainStep] at hst
    | killed => simp [step, mainStep] at hst
    | aborted => simp [step, mainStep] at hst
    | segv => simp [step, mainStep] at hst
    | deadlock => simp [step, mainStep] at hst
  | signal l =>
    cases l with
    | true => exact absurd rfl hev
    | false =>
      cases pc with
      | init => exact absurd (h0 rfl) (by simp)
      | options =>
        simp only [Inv] at hi
        simp [step, signalStep, Pc.over, hi] at hst
        subst hst; simp [Inv]
      | construct =>
        simp only [Inv] at hi
        simp [step, signalStep, Pc.over, hi] at hst
        subst hst; simp [Inv]
      | build =>
        simp only [Inv] at hi
        simp [step, signalStep, Pc.over, hi] at hst
        subst hst; simp [Inv]
      | assign =>
        simp only [Inv] at hi
        simp [step, signalStep, Pc.over, hi] at hst
        subst hst
        exact ⟨by exact ⟨rfl, rfl, rfl, rfl, rfl, hi.2.2.2.2.2⟩, by simp⟩
      | setMode =>
        simp only [Inv] at hi
        simp [step, signalStep, Pc.over, hi] at hst
        subst hst
        exact ⟨by exact ⟨rfl, rfl, rfl, rfl, hi.2.2.2.2⟩, by simp⟩
      | wait =>
        simp only [Inv] at hi
        simp [step, signalStep, Pc.over, hi] at hst
        subst hst
        exact ⟨by exact ⟨rfl, rfl, rfl, rfl, hi.2.2.2.2⟩, by simp⟩
      | cleanup =>
        simp only [Inv] at hi
        simp [step, signalStep, Pc.over, hi] at hst
        subst hst
        exact ⟨by exact ⟨rfl, rfl, rfl, rfl, hi.2.2.2.2.1, rfl, rfl⟩, by simp⟩
      | exited n => simp [step, signalStep, Pc.over] at hst
      | killed => simp [step, signalStep, Pc.over] at hst
      | aborted => simp [step, signalStep, Pc.over] at hst
      | segv => simp [step, signalStep, Pc.over] at hst
      | deadlock => simp [step, signalStep, Pc.over] at hst
  | call =>
    cases pc with
    | assign =>
      simp only [step] at hst
      split at hst
      · simp only [Option.some.injEq] at hst
        subst hst; exact ⟨hi, by simp⟩
      · exact absurd hst (by simp)
    | setMode =>
      simp only [step] at hst
      split at hst
      · simp only [Option.some.injEq] at hst
        subst hst; exact ⟨hi, by simp⟩
      · exact absurd hst (by simp)
    | wait =>
      simp only [step] at hst
      split at hst
      · simp only [Option.some.injEq] at hst
        subst hst; exact ⟨hi, by simp⟩
      · exact absurd hst (by simp)
    | cleanup =>
      simp only [Inv] at hi
      simp [step, hi] at hst
    | _ => simp [step, Pc.over] at hst <;> simp [Inv] at hi <;> simp [hi] at hst
  | search =>
    cases pc with
    | assign =>
      simp only [step] at hst
      split at hst
      · simp only [Option.some.injEq] at hst
        subst hst
        simp only [Inv] at hi ⊢
        refine ⟨⟨hi.1, hi.2.1, hi.2.2.1, hi.2.2.2.1, hi.2.2.2.2.1, ?_⟩, by simp⟩
        intro b hb
        rcases List.mem_append.mp hb with hb | hb
        · exact hi.2.2.2.2.2 b hb
        · rw [List.mem_singleton.mp hb]; exact hi.1
      · exact absurd hst (by simp)
    | setMode =>
      simp only [step] at hst
      split at hst
      · simp only [Option.some.injEq] at hst
        subst hst
        simp only [Inv] at hi ⊢
        refine ⟨⟨hi.1, hi.2.1, hi.2.2.1, hi.2.2.2.1, ?_⟩, by simp⟩
        intro b hb
        rcases List.mem_append.mp hb with hb | hb
        · exact hi.2.2.2.2 b hb
        · rw [List.mem_singleton.mp hb]; exact hi.1
      · exact absurd hst (by simp)
    | wait =>
      simp only [step] at hst
      split at hst
      · simp only [Option.some.injEq] at hst
        subst hst
        simp only [Inv] at hi ⊢
        refine ⟨⟨hi.1, hi.2.1, hi.2.2.1, hi.2.2.2.1, ?_⟩, by simp⟩
        intro ho b hb
        rcases List.mem_append.mp hb with hb | hb
        · exact hi.2.2.2.2 ho b hb
        · rw [List.mem_singleton.mp hb]; exact hi.1.trans ho
      · exact absurd hst (by simp)
    | cleanup =>
      simp only [Inv] at hi
      simp [step, hi] at hst
    | _ => simp [step, Pc.over] at hst <;> simp [Inv] at hi <;> simp [hi] at hst
  | finish =>
    cases pc with
    | assign =>
      simp only [step] at hst
      split at hst
      · simp only [Option.some.injEq] at hst
        subst hst; exact ⟨hi, by simp⟩
      · exact absurd hst (by simp)
    | setMode =>
      simp only [step] at hst
      split at hst
      · simp only [Option.some.injEq] at hst
        subst hst; exact ⟨hi, by simp⟩
      · exact absurd hst (by simp)
    | wait =>
      simp only [step] at hst
      split at hst
      · simp only [Option.some.injEq] at hst
        subst hst; exact ⟨hi, by simp⟩
      · exact absurd hst (by simp)
    | cleanup =>
      simp only [Inv] at hi
      simp [step, hi] at hst
    | _ => simp [step, Pc.over] at hst <;> simp [Inv] at hi <;> simp [hi] at hst

theorem inv_run' {e : Env} {o : ServerArgs} (hu : Usable e o) (evs : List Ev) {s s' : State} (hi : Inv o s)
    (h0 : s.pc ≠ .init) (hev : ∀ ev ∈ evs, ev ≠ .signal true) (hr : run e s evs = some s') :
    Inv o s' := by
  induction evs generalizing s with
  | nil => simp only [run, Option.some.injEq] at hr; exact hr ▸ hi
  | cons ev evs ih =>
    simp only [run] at hr
    split at hr
    · exact absurd hr (by simp)
    · next s1 h1 =>
      obtain ⟨a, b⟩ := inv_step hu hi h1 (hev ev List.mem_cons_self) (fun h => absurd h h0)
      exact ih a b (fun x hx => hev x (List.mem_cons_of_mem _ hx)) hr

theorem inv_run {e : Env} {o : ServerArgs} (hu : Usable e o) (evs : List Ev) {s : State}
    (hf : fairSignals evs = true) (hr : run e State.init evs = some s) : Inv o s := by
  match evs with
  | [] => simp only [run, Option.some.injEq] at hr; exact hr ▸ inv_init o
  | .main :: evs =>
    have hev : ∀ ev ∈ evs, ev ≠ .signal true := by
      simpa [fairSignals] using hf
    simp only [run] at hr
    split at hr
    · exact absurd hr (by simp)
    · next s1 h1 =>
      obtain ⟨a, b⟩ := inv_step hu (inv_init o) h1 (by simp) (fun _ => rfl)
      exact inv_run' hu evs a b hev hr
  | .signal _ :: _ => simp [fairSignals] at hf
  | .call :: _ => simp [fairSignals] at hf
  | .search :: _ => simp [fairSignals] at hf
  | .finish :: _ => simp [fairSignals] at hf

theorem run_append (e : Env) (l₁ l₂ : List Ev) (s : State) :
    run e s (l₁ ++ l₂) = (run e s l₁).bind (fun s' => run e s' l₂) := by
  induction l₁ generalizing s with
  | nil => rfl
  | cons ev l₁ ih =>
    simp only [List.cons_append, run]
    cases step e s ev with
    | none => rfl
    | some s' => exact ih s'

/-! ## How the process can end -/

/-- **C67**: a server that can start, told to stop only by signals as in `fairSignals`, ends in no other way
than with status 0 after such a signal, when no call is being worked on. -/
theorem C67_end_partial {e : Env} {o : ServerArgs} (hu : Usable e o) (evs : List Ev) {s : State}
    (hf : fairSignals evs = true) (hr : run e State.init evs = some s) (hover : s.pc.over = true) :
    s.pc = .exited 0 ∧ s.calls = 0 ∧ .signal false ∈ evs := by
  have hi := inv_run hu evs hf hr
  have hpc : s.pc = .exited 0 ∧ s.calls = 0 ∧ s.shut = true := by
    unfold Inv at hi
    split at hi <;> simp_all [Pc.over]
  refine ⟨hpc.1, hpc.2.1, ?_⟩
  -- `shut` is set by a signal only
  have key : ∀ (l : List Ev) (s₀ : State), s₀.shut = false → run e s₀ l = some s →
      (∀ ev ∈ l, ev ≠ .signal true) → .signal false ∈ l := by
    intro l
    induction l with
    | nil =>
      intro s₀ h0 h1 _
      simp only [run, Option.some.injEq] at h1
      rw [h1, hpc.2.2] at h0; exact absurd h0 (by simp)
    | cons ev l ih =>
      intro s₀ h0 h1 hev
      simp only [run] at h1
      split at h1
      · exact absurd h1 (by simp)
      · next s1 h2 =>
        by_cases hsig : ev = .signal false
        · rw [hsig]; exact List.mem_cons_self
        · refine List.mem_cons_of_mem _ (ih s1 ?_ h1 (fun x hx => hev x (List.mem_cons_of_mem _ hx)))
          cases ev with
          | main =>
            simp only [step, mainStep] at h2
            split at h2
            all_goals first
              | (simp only [Option.some.injEq] at h2; subst h2; exact h0)
              | skip
            · split at h2 <;> (simp only [Option.some.injEq] at h2; subst h2; exact h0)
            · split at h2
              · simp only [Option.some.injEq] at h2; subst h2; exact h0
              · rw [h0] at h2; simp at h2
            · exact absurd h2 (by simp)
          | signal b =>
            cases b with
            | true => exact absurd rfl (hev _ List.mem_cons_self)
            | false => exact absurd rfl hsig
          | call =>
            simp only [step] at h2
            split at h2
            · simp only [Option.some.injEq] at h2; subst h2; exact h0
            · exact absurd h2 (by simp)
          | search =>
            simp only [step] at h2
            split at h2
            · simp only [Option.some.injEq] at h2; subst h2; exact h0
            · exact absurd h2 (by simp)
          | finish =>
            simp only [step] at h2
            split at h2
            · simp only [Option.some.injEq] at h2; subst h2; exact h0
            · exact absurd h2 (by simp)
  refine key evs State.init rfl hr ?_
  match evs, hf with
  | [], _ => simp
  | .main :: evs, hf =>
    have : ∀ ev ∈ evs, ev ≠ .signal true := by simpa [fairSignals] using hf
    intro ev hev
    rcases List.mem_cons.mp hev with rfl | hev
    · simp
    · exact this ev hev

/-! ## Stopping -/

/-- How far the end is. -/
def left (s : State) : Nat :=
  s.calls + match s.pc with
    | .setMode => 3
    | .wait => 2
    | .cleanup => 1
    | _ => 0

/-- The states after `Shutdown`. -/
def Stopping (o : ServerArgs) (s : State) : Prop :=
  Inv o s ∧ s.shut = true ∧ (s.pc = .setMode ∨ s.pc = .wait ∨ s.pc = .cleanup ∨ s.pc = .exited 0)

theorem stopping_of_shut {o : ServerArgs} {s : State} (hi : Inv o s) (h : s.shut = true) : Stopping o s := by
  refine ⟨hi, h, ?_⟩
  unfold Inv at hi
  split at hi <;> simp_all

theorem stopping_step {e : Env} {o : ServerArgs} (hu : Usable e o) {s s' : State} {ev : Ev}
    (h : Stopping o s) (hst : step e s ev = some s') (hev : ev ≠ .signal true) :
    Stopping o s' ∧ left s' + ownSteps [ev] ≤ left s := by
  obtain ⟨hi, hs, hpc⟩ := h
  have hi' := inv_step hu hi hst hev (by intro h0; rw [h0] at hpc; simp at hpc)
  obtain ⟨pc, opts, async, ptr, started, shut, calls, served⟩ := s
  simp only at hs hpc
  subst hs
  cases ev with
  | main =>
    rcases hpc with rfl | rfl | rfl | rfl
    · simp only [step, mainStep, Option.some.injEq] at hst
      subst hst
      exact ⟨stopping_of_shut hi'.1 rfl, by simp [left, ownSteps]⟩
    · simp only [Inv] at hi
      simp only [step, mainStep, hi.2.2.1, Bool.not_true, Bool.false_eq_true, if_false, Bool.true_and] at hst
      split at hst
      · next hc =>
        simp only [Option.some.injEq] at hst
        subst hst
        exact ⟨stopping_of_shut hi'.1 rfl, by simp [left, ownSteps]⟩
      · exact absurd hst (by simp)
    · simp only [step, mainStep, Option.some.injEq] at hst
      subst hst
      exact ⟨stopping_of_shut hi'.1 rfl, by simp [left, ownSteps]⟩
    · simp [step, mainStep] at hst
  | signal b =>
    cases b with
    | true => exact absurd rfl hev
    | false =>
      rcases hpc with rfl | rfl | rfl | rfl
      · simp only [Inv] at hi
        simp [step, signalStep, Pc.over, hi] at hst
        subst hst
        exact ⟨stopping_of_shut hi'.1 rfl, by simp [left, ownSteps]⟩
      · simp only [Inv] at hi
        simp [step, signalStep, Pc.over, hi] at hst
        subst hst
        exact ⟨stopping_of_shut hi'.1 rfl, by simp [left, ownSteps]⟩
      · simp only [Inv] at hi
        simp [step, signalStep, Pc.over, hi] at hst
        subst hst
        exact ⟨stopping_of_shut hi'.1 rfl, by simp [left, ownSteps, hi]⟩
      · simp [step, signalStep, Pc.over] at hst
  | call => simp [step] at hst
  | search =>
    simp only [step] at hst
    split at hst
    · simp only [Option.some.injEq] at hst
      subst hst
      exact ⟨stopping_of_shut hi'.1 rfl, by simp [left, ownSteps]⟩
    · exact absurd hst (by simp)
  | finish =>
    simp only [step] at hst
    split at hst
    · next hc =>
      simp only [Bool.and_eq_true, decide_eq_true_eq] at hc
      simp only [Option.some.injEq] at hst
      subst hst
      refine ⟨stopping_of_shut hi'.1 rfl, ?_⟩
      simp only [left, ownSteps]
      simp
      omega
    · exact absurd hst (by simp)

theorem stopping_run {e : Env} {o : ServerArgs} (hu : Usable e o) (evs : List Ev) {s s' : State}
    (h : Stopping o s) (hev : ∀ ev ∈ evs, ev ≠ .signal true) (hr : run e s evs = some s') :
    Stopping o s' ∧ left s' + ownSteps evs ≤ left s := by
  induction evs generalizing s with
  | nil => simp only [run, Option.some.injEq] at hr; subst hr; exact ⟨h, by simp [ownSteps]⟩
  | cons ev evs ih =>
    simp only [run] at hr
    split at hr
    · exact absurd hr (by simp)
    · next s1 h1 =>
      obtain ⟨a, b⟩ := stopping_step hu h h1 (hev ev List.mem_cons_self)
      obtain ⟨c, d⟩ := ih a (fun x hx => hev x (List.mem_cons_of_mem _ hx)) hr
      refine ⟨c, ?_⟩
      have : ownSteps (ev :: evs) = ownSteps [ev] + ownSteps evs := by
        simp only [ownSteps, List.countP_cons, List.countP_nil]; omega
      omega

/-- **C67**: a server that can start and gets a signal after the assignment of its global pointer (the main
thread is at `set_async_search` or `wait`) stops.  Whatever happens after the signal: the main thread and the
calls can make only so many steps, and unless the process has exited with status 0, one such step is
possible. -/
theorem C67_stop_partial {e : Env} {o : ServerArgs} (hu : Usable e o) (before after : List Ev) {s s' : State}
    (hf : fairSignals before = true) (hr : run e State.init before = some s)
    (hpc : s.pc = .setMode ∨ s.pc = .wait)
    (hf' : ∀ ev ∈ after, ev ≠ .signal true) (hr' : run e s (.signal false :: after) = some s') :
    ownSteps after ≤ s.calls + 3 ∧
    (s'.pc = .exited 0 ∨ (step e s' .main).isSome = true ∨ (step e s' .finish).isSome = true) := by
  have hi := inv_run hu before hf hr
  have hsig : step e s (.signal false) = some { s with shut := true } := by
    rcases hpc with h | h <;> simp only [Inv, h] at hi <;> simp [step, signalStep, h, Pc.over, hi]
  simp only [run, hsig] at hr'
  have hst : Stopping o { s with shut := true } := by
    refine stopping_of_shut ?_ rfl
    exact (inv_step hu hi hsig (by simp) (by intro h0; rw [h0] at hpc; simp at hpc)).1
  obtain ⟨⟨hi', hs', hp'⟩, hl⟩ := stopping_run hu after hst hf' hr'
  constructor
  · have : left { s with shut := true } ≤ s.calls + 3 := by
      rcases hpc with h | h <;> simp [left, h]
    omega
  · rcases hp' with h | h | h | h
    · exact Or.inr (Or.inl (by simp [step, mainStep, h]))
    · simp only [Inv, h] at hi'
      by_cases hc : s'.calls = 0
      · exact Or.inr (Or.inl (by simp [step, mainStep, h, hi', hs', hc]))
      · exact Or.inr (Or.inr (by simp [step, h, Pc.over]; omega))
    · exact Or.inr (Or.inl (by simp [step, mainStep, h]))
    · exact Or.inl h

/-- An environment for the examples: a server with option `-s` -/
def exampleEnv : Env := ⟨.diana, ["-s".toList], fun _ => true, true⟩

/-- The start of a server -/
def start : List Ev := List.replicate 6 .main

example : Usable exampleEnv ⟨"test.dsdb".toList, false⟩ := ⟨by decide +kernel, rfl, rfl⟩

example : (run exampleEnv State.init (start ++ [.call, .signal false, .search, .finish, .main, .main])).map State.pc
    = some (.exited 0) ∧ fairSignals (start ++ [.call]) = true ∧
    (run exampleEnv State.init (start ++ [.call])).map State.pc = some .wait := by decide +kernel

/-! ## Mode of the searches -/

/-- **C67**: without `-s`, all searches of a server that can start are asynchronous; with or without it, those
done once the main thread waits are in the mode asked for. -/
theorem C67_mode_partial {e : Env} {o : ServerArgs} (hu : Usable e o) (evs : List Ev) {s : State}
    (hf : fairSignals evs = true) (hr : run e State.init evs = some s) :
    (o.async = true → ∀ b ∈ s.served, b = true) ∧
    (s.pc = .wait → ∀ s', step e s .search = some s' → s'.served = s.served ++ [o.async]) := by
  have hi := inv_run hu evs hf hr
  constructor
  · intro ho
    unfold Inv at hi
    split at hi <;> simp_all
  · intro hpc s' hst
    simp only [Inv, hpc] at hi
    simp only [step] at hst
    split at hst
    · simp only [Option.some.injEq] at hst
      subst hst
      simp [hi.1]
    · exact absurd hst (by simp)

/-- **C67 violated**: with `-s`, a search that comes before the main thread has set the mode is asynchronous. -/
theorem C67_mode_violated {e : Env} {o : ServerArgs} (hu : Usable e o) (hsync : o.async = false) :
    ∃ s, run e State.init [.main, .main, .main, .main, .call, .search] = some s ∧
      ∃ b ∈ s.served, b ≠ o.async := by
  refine ⟨⟨.assign, o, true, false, true, false, 1, [true]⟩, ?_, true, by simp, by simp [hsync]⟩
  simp [run, step, mainStep, State.init, hu.args, hu.dir, hu.port, Pc.over]

/-! ## Violations -/

/-- The state of the server once it waits. -/
def waiting (o : ServerArgs) : State := ⟨.wait, o, o.async, true, true, false, 0, []⟩

/-- **C67 violated**: a signal that comes after the installation of the handlers and before the assignment of the
pointer is lost: the server starts and, without another signal, never ends. -/
theorem C67_early_violated {e : Env} {o : ServerArgs} (hu : Usable e o) (k : Nat) (hk : 1 ≤ k ∧ k ≤ 4) :
    run e State.init (List.replicate k .main ++ [.signal false] ++ List.replicate (6 - k) .main) =
      some (waiting o) ∧
    ∀ evs s, (∀ ev ∈ evs, ∀ b, ev ≠ .signal b) → run e (waiting o) evs = some s → s.pc = .wait := by
  constructor
  · have : k = 1 ∨ k = 2 ∨ k = 3 ∨ k = 4 := by omega
    rcases this with rfl | rfl | rfl | rfl <;>
      simp [List.replicate, run, step, mainStep, signalStep, State.init, hu.args, hu.dir, hu.port, Pc.over,
        waiting]
  · have key : ∀ (evs : List Ev) (s₀ s : State), s₀.pc = .wait ∧ s₀.shut = false ∧ s₀.started = true →
        (∀ ev ∈ evs, ∀ b, ev ≠ .signal b) → run e s₀ evs = some s → s.pc = .wait := by
      intro evs
      induction evs with
      | nil =>
        intro s₀ s h _ hr
        simp only [run, Option.some.injEq] at hr
        exact hr ▸ h.1
      | cons ev evs ih =>
        intro s₀ s h hev hr
        simp only [run] at hr
        split at hr
        · exact absurd hr (by simp)
        · next s1 h1 =>
          refine ih s1 s ?_ (fun x hx => hev x (List.mem_cons_of_mem _ hx)) hr
          cases ev with
          | main => simp [step, mainStep, h] at h1
          | signal b => exact absurd rfl (hev _ List.mem_cons_self b)
          | call => simp [step, h, Pc.over] at h1; subst h1; exact ⟨rfl, rfl, rfl⟩
          | search =>
            simp only [step] at h1
            split at h1
            · simp only [Option.some.injEq] at h1; subst h1; exact h
            · exact absurd h1 (by simp)
          | finish =>
            simp only [step] at h1
            split at h1
            · simp only [Option.some.injEq] at h1; subst h1; exact h
            · exact absurd h1 (by simp)
    intro evs s hev hr
    exact key evs (waiting o) s ⟨rfl, rfl, rfl⟩ hev hr

/-- **C67 violated**: a call that does not end, such as an update session that a client leaves open, keeps the
process from ending, whatever the number of signals. -/
theorem C67_session_violated {e : Env} {o : ServerArgs} (hu : Usable e o) (evs : List Ev) (s : State)
    (hev : ∀ ev ∈ evs, ev ≠ .finish ∧ ev ≠ .signal true)
    (hr : run e State.init (List.replicate 6 .main ++ [.call, .signal false] ++ evs) = some s) :
    s.pc = .wait := by
  have h0 : run e State.init (List.replicate 6 .main ++ [.call, .signal false]) =
      some { waiting o with calls := 1, shut := true } := by
    simp [List.replicate, run, step, mainStep, signalStep, State.init, hu.args, hu.dir, hu.port, Pc.over,
      waiting]
  rw [run_append, h0] at hr
  have key : ∀ (evs : List Ev) (s₀ s : State),
      s₀.pc = .wait ∧ 0 < s₀.calls ∧ s₀.started = true ∧ s₀.ptr = true →
      (∀ ev ∈ evs, ev ≠ .finish ∧ ev ≠ .signal true) → run e s₀ evs = some s → s.pc = .wait := by
    intro evs
    induction evs with
    | nil =>
      intro s₀ s h _ hr
      simp only [run, Option.some.injEq] at hr
      exact hr ▸ h.1
    | cons ev evs ih =>
      intro s₀ s h hev hr
      simp only [run] at hr
      split at hr
      · exact absurd hr (by simp)
      · next s1 h1 =>
        refine ih s1 s ?_ (fun x hx => hev x (List.mem_cons_of_mem _ hx)) hr
        cases ev with
        | main =>
          have : (s₀.calls == 0) = false := by simp; omega
          simp [step, mainStep, h, this] at h1
        | signal b =>
          cases b with
          | true => exact absurd rfl (hev _ List.mem_cons_self).2
          | false => simp [step, signalStep, h, Pc.over] at h1; subst h1; exact ⟨rfl, h.2.1, rfl, rfl⟩
        | call =>
          simp only [step] at h1
          split at h1
          · simp only [Option.some.injEq] at h1; subst h1; exact ⟨h.1, by simp, h.2.2⟩
          · exact absurd h1 (by simp)
        | search =>
          simp only [step] at h1
          split at h1
          · simp only [Option.some.injEq] at h1; subst h1; exact h
          · exact absurd h1 (by simp)
        | finish => exact absurd rfl (hev _ List.mem_cons_self).1
  exact key evs _ s ⟨rfl, Nat.one_pos, rfl, rfl⟩ hev hr

/-- **C67 violated**: a server whose port is in use does not report it but uses a null pointer. -/
theorem C67_port_violated {e : Env} {o : ServerArgs} (ha : serverArgs e.scheme e.args = .ok o)
    (hd : e.dirOk o.db = true) (hp : e.portFree = false) :
    (run e State.init (List.replicate 7 .main)).map State.pc = some .segv := by
  simp [List.replicate, run, step, mainStep, State.init, ha, hd, hp]

/-- **C67 violated**: a server whose database cannot be used ends by an exception that is not caught. -/
theorem C67_database_violated {e : Env} {o : ServerArgs} (ha : serverArgs e.scheme e.args = .ok o)
    (hd : e.dirOk o.db = false) :
    (run e State.init (List.replicate 3 .main)).map State.pc = some .aborted := by
  simp [List.replicate, run, step, mainStep, State.init, ha, hd]

/-- **C67 violated**: a signal whose handler interrupts a thread writing a log message blocks for ever; so at the
start, and while a call is being worked on. -/
theorem C67_log_violated {e : Env} {o : ServerArgs} (hu : Usable e o) :
    (run e State.init [.main, .signal true]).map State.pc = some .deadlock ∧
    (run e State.init (List.replicate 6 .main ++ [.call, .signal true])).map State.pc = some .deadlock ∧
    ∀ s ev, s.pc = .deadlock → step e s ev = none := by
  refine ⟨?_, ?_, ?_⟩
  · simp [run, step, mainStep, signalStep, State.init, Pc.over, State.mayLog]
  · simp [List.replicate, run, step, mainStep, signalStep, State.init, hu.args, hu.dir, hu.port, Pc.over,
      State.mayLog]
  · intro s ev h
    cases ev <;> simp [step, mainStep, signalStep, h, Pc.over]

example : (run ⟨.sophos, [], fun _ => true, false⟩ State.init (List.replicate 7 .main)).map State.pc =
    some .segv := by decide +kernel

end Verif.Cli.Server
