import Verif.Utils.Logger

/-!
# C65: logging and measuring

Full statement: every call of `logger()`, `set_logger`, `set_logging_level` and `set_benchmark_file`
succeeds, by any thread at any time; messages go to the logger set last (to none after
`set_logger(nullptr)`, to the console if none was set); a `Benchmark` reports the time from its
construction to its first `stop`, and the count given last.

It does not hold: see the `_violated` theorems.
-/

namespace Verif.Logger

/-! ## Specification -/

namespace Spec

/-- The logger to be used after the calls, given in order. -/
def current : Handle → List Call → Handle
  | h, [] => h
  | _, .setLogger none :: calls => current .null calls
  | _, .setLogger (some k) :: calls => current (.user k) calls
  | h, _ :: calls => current h calls

/-- The results that a user expects: `logger()` returns the current logger, nothing throws. -/
def expected : Handle → List Call → List Res
  | _, [] => []
  | h, .logger :: calls => .returned h :: expected h calls
  | h, call :: calls => .done :: expected (current h [call]) calls

/-- Number of calls `set_logger(nullptr)`. -/
def nulls (calls : List Call) : Nat :=
  (calls.filter (fun c => match c with | .setLogger none => true | _ => false)).length

/-- Number of calls of `set_benchmark_file`. -/
def benchmarks (calls : List Call) : Nat :=
  (calls.filter (fun c => match c with | .benchmarkFile _ => true | _ => false)).length

/-- The time of the first `stop`, or of the destruction. -/
def stopTime : List BenchCall → Nat → Nat
  | [], destroyed => destroyed
  | .stop t :: _, _ => t
  | .stopCount t _ :: _, _ => t
  | .setCount _ :: calls, destroyed => stopTime calls destroyed

/-- The count given last before the first `stop` or by it, or set explicitly later. -/
def lastCount : Nat → List BenchCall → Nat
  | n, [] => n
  | n, .stop _ :: calls => lastCount n calls
  | _, .stopCount _ c :: calls => lastCount c calls
  | _, .setCount c :: calls => lastCount c calls

end Spec

/-! ## One thread -/

/-- The library's names are registered only by the library. -/
structure Inv (s : State) (h : Handle) (n b : Nat) : Prop where
  shared : s.shared = some h ∨ (s.shared = none ∧ h = .console ∧ "console" ∉ s.names)
  null : n = 0 → "null_logger" ∉ s.names
  bench : b = 0 → "benchmark" ∉ s.names

theorem inv_mono {s : State} {h : Handle} {n b : Nat} (hi : Inv s h n b) {s' : State} {h' : Handle}
    {n' b' : Nat} (hs : s'.names = s.names) (hsh : s'.shared = some h') (hn : n' = n) (hb : b' = b) :
    Inv s' h' n' b' := by
  subst hn hb
  exact ⟨Or.inl hsh, by rw [hs]; exact hi.null, by rw [hs]; exact hi.bench⟩

/-- `logger()` by one thread never throws. -/
theorem logger_ok {s : State} {h : Handle} {n b : Nat} (hi : Inv s h n b) :
    (logger s).1 = some h ∧ (logger s).2.shared = some h ∧ Inv (logger s).2 h n b := by
  rcases hi.shared with hs | ⟨hs, rfl, hc⟩
  · have : logger s = (some h, s) := by unfold logger; rw [hs]
    rw [this]; exact ⟨rfl, hs, hi⟩
  · have : create s.names "console" = some ("console" :: s.names) := by
      simp [create, hc]
    have hl : logger s = (some .console,
        { s with names := "console" :: s.names, shared := some .console }) := by
      unfold logger; rw [hs]; simp only; rw [this]
    rw [hl]
    refine ⟨rfl, rfl, Or.inl rfl, ?_, ?_⟩
    · intro h0; simpa using hi.null h0
    · intro h0; simpa using hi.bench h0

theorem run_expected (calls : List Call) (s : State) (h : Handle) (n b : Nat) (hi : Inv s h n b)
    (hn : n + Spec.nulls calls ≤ 1) (hb : b + Spec.benchmarks calls ≤ 1) :
    (run s calls).2 = Spec.expected h calls := by
  induction calls generalizing s h n b with
  | nil => rfl
  | cons call calls ih =>
    cases call with
    | logger =>
      obtain ⟨h1, -, h3⟩ := logger_ok hi
      simp only [run, step, Spec.expected]
      generalize logger s = x at h1 h3
      obtain ⟨x1, x2⟩ := x
      simp only at h1 h3
      subst h1
      simp only
      exact congrArg _ (ih x2 h n b h3 (by simpa [Spec.nulls] using hn)
        (by simpa [Spec.benchmarks] using hb))
    | setLevel l =>
      obtain ⟨h1, h2, h3⟩ := logger_ok hi
      simp only [run, step, Spec.expected]
      generalize logger s = x at h1 h2 h3
      obtain ⟨x1, x2⟩ := x
      simp only at h1 h2 h3
      subst h1
      simp only
      exact congrArg _ (ih _ h n b (inv_mono h3 rfl h2 rfl rfl) (by simpa [Spec.nulls] using hn)
        (by simpa [Spec.benchmarks] using hb))
    | setLogger o =>
      cases o with
      | some k =>
        simp only [run, step, Spec.expected]
        exact congrArg _ (ih _ (.user k) n b (inv_mono hi rfl rfl rfl rfl)
          (by simpa [Spec.nulls] using hn) (by simpa [Spec.benchmarks] using hb))
      | none =>
        have hn' : n + (Spec.nulls calls + 1) ≤ 1 := by simpa [Spec.nulls] using hn
        have hc : create s.names "null_logger" = some ("null_logger" :: s.names) := by
          simp [create, hi.null (by omega)]
        simp only [run, step, hc, Spec.expected]
        refine congrArg _ (ih _ .null 1 b ⟨Or.inl rfl, by omega, ?_⟩ (by omega)
          (by simpa [Spec.benchmarks] using hb))
        intro h0; simpa using hi.bench h0
    | benchmarkFile p =>
      have hb' : b + (Spec.benchmarks calls + 1) ≤ 1 := by simpa [Spec.benchmarks] using hb
      have hc : create s.names "benchmark" = some ("benchmark" :: s.names) := by
        simp [create, hi.bench (by omega)]
      simp only [run, step, hc, Spec.expected]
      refine congrArg _ (ih _ h n 1 ⟨?_, ?_, by omega⟩ (by simpa [Spec.nulls] using hn) (by omega))
      · rcases hi.shared with hs | ⟨hs, hh, hcn⟩
        · exact Or.inl hs
        · exact Or.inr ⟨hs, hh, by simpa using hcn⟩
      · intro h0; simpa using hi.null h0

/-- **C65** for one thread: if the three names of the library are free, and `set_logger(nullptr)` and
`set_benchmark_file` are called at most once each, all calls succeed and `logger()` always returns the
logger set last. -/
theorem C65_calls_partial (names : List String) (calls : List Call)
    (hfree : "console" ∉ names ∧ "null_logger" ∉ names ∧ "benchmark" ∉ names)
    (hn : Spec.nulls calls ≤ 1) (hb : Spec.benchmarks calls ≤ 1) :
    (run (State.init names) calls).2 = Spec.expected .console calls :=
  run_expected calls _ .console 0 0
    ⟨Or.inr ⟨rfl, rfl, hfree.1⟩, fun _ => hfree.2.1, fun _ => hfree.2.2⟩ (by omega) (by omega)

example : (run (State.init ["mine"]) [.setLevel 2, .benchmarkFile "b", .logger, .setLogger none,
    .logger, .setLogger (some 3), .logger]).2 =
    [.done, .done, .returned .console, .done, .returned .null, .done, .returned (.user 3)] := by
  decide +kernel

/-- **C65**: `set_logging_level`, when it succeeds, sets the level of the logger used from then on, and of no
other. -/
theorem C65_level (s : State) (l : Nat) (h : (step s (.setLevel l)).2 = .done) :
    ∃ x, (step s (.setLevel l)).1.shared = some x ∧ (step s (.setLevel l)).1.level x = l ∧
      ∀ y, y ≠ x → (step s (.setLevel l)).1.level y = s.level y := by
  obtain ⟨names, shared, bench, level⟩ := s
  cases shared with
  | some x => exact ⟨x, rfl, by simp [step, logger], fun y hy => by simp [step, logger, hy]⟩
  | none =>
    cases hc : create names "console" with
    | none => simp [step, logger, hc] at h
    | some names' =>
      exact ⟨.console, by simp [step, logger, hc], by simp [step, logger, hc],
        fun y hy => by simp [step, logger, hc, hy]⟩

example : (step (State.init []) (.setLevel 0)).2 = .done ∧
    (step (State.init []) (.setLevel 0)).1.level .console = 0 := by decide +kernel

/-- The names never disappear. -/
theorem names_step (s : State) (call : Call) (x : String) (hx : x ∈ s.names) :
    x ∈ (step s call).1.names := by
  have hc : ∀ names name names', create names name = some names' → x ∈ names → x ∈ names' := by
    intro names name names' h hm
    unfold create at h
    split at h
    · exact absurd h (by simp)
    · rw [← Option.some.inj h]; exact List.mem_cons_of_mem _ hm
  have hl : x ∈ (logger s).2.names := by
    unfold logger
    split
    · exact hx
    · split
      · next h => exact hc _ _ _ h hx
      · exact hx
  cases call with
  | logger =>
    simp only [step]
    generalize logger s = y at hl
    obtain ⟨y1, y2⟩ := y
    cases y1 <;> exact hl
  | setLevel l =>
    simp only [step]
    generalize logger s = y at hl
    obtain ⟨y1, y2⟩ := y
    cases y1 <;> exact hl
  | setLogger o =>
    cases o with
    | some k => exact hx
    | none =>
      simp only [step]
      split
      · next h => exact hc _ _ _ h hx
      · exact hx
  | benchmarkFile p =>
    simp only [step]
    split
    · next h => exact hc _ _ _ h hx
    · exact hx

theorem names_run (calls : List Call) (s : State) (x : String) (hx : x ∈ s.names) :
    x ∈ (run s calls).1.names := by
  induction calls generalizing s with
  | nil => exact hx
  | cons call calls ih => exact ih _ (names_step s call x hx)

theorem run_append (s : State) (l₁ l₂ : List Call) :
    (run s (l₁ ++ l₂)).2 = (run s l₁).2 ++ (run (run s l₁).1 l₂).2 := by
  induction l₁ generalizing s with
  | nil => rfl
  | cons call calls ih => simp only [List.cons_append, run, ih]

/-- **C65 violated**: the second `set_logger(nullptr)` throws, whatever happens before, between and
whatever the names: the messages go on to the logger set meanwhile. -/
theorem C65_second_null_violated (names : List String) (before between : List Call) (k : Nat) :
    ∃ rs, (run (State.init names)
      (before ++ [.setLogger none] ++ between ++ [.setLogger (some k), .setLogger none, .logger])).2 =
        rs ++ [.done, .threw, .returned (.user k)] := by
  rw [run_append]
  refine ⟨_, congrArg _ ?_⟩
  have hmem : "null_logger" ∈ (run (State.init names) (before ++ [.setLogger none] ++ between)).1.names := by
    have hap : ∀ (l₁ l₂ : List Call) (s : State), (run s (l₁ ++ l₂)).1 = (run (run s l₁).1 l₂).1 := by
      intro l₁
      induction l₁ with
      | nil => intros; rfl
      | cons c cs ih => intro l₂ s; simp only [List.cons_append, run, ih]
    rw [hap, hap]
    apply names_run
    simp only [run, step]
    by_cases hc : "null_logger" ∈ (run (State.init names) before).1.names
    · have : create (run (State.init names) before).1.names "null_logger" = none := by
        simp [create, hc]
      rw [this]; exact hc
    · have : create (run (State.init names) before).1.names "null_logger" =
          some ("null_logger" :: (run (State.init names) before).1.names) := by simp [create, hc]
      rw [this]; exact List.mem_cons_self
  generalize (run (State.init names) (before ++ [.setLogger none] ++ between)).1 = s at hmem
  have : create s.names "null_logger" = none := by simp [create, hmem]
  simp [run, step, this, logger]

/-- **C65 violated**: the second `set_benchmark_file` throws and the measurements go on to the first
file. -/
theorem C65_second_file_violated (names : List String) (between : List Call) (p q : String)
    (hno : Spec.benchmarks between = 0) (hfree : "benchmark" ∉ names) :
    ∃ rs, (run (State.init names) ([.benchmarkFile p] ++ between ++ [.benchmarkFile q])).2 =
        rs ++ [.threw] ∧
      (run (State.init names) ([.benchmarkFile p] ++ between ++ [.benchmarkFile q])).1.bench =
        some p := by
  have hap : ∀ (l₁ l₂ : List Call) (s : State), (run s (l₁ ++ l₂)).1 = (run (run s l₁).1 l₂).1 := by
    intro l₁
    induction l₁ with
    | nil => intros; rfl
    | cons c cs ih => intro l₂ s; simp only [List.cons_append, run, ih]
  have hbench : ∀ (cs : List Call) (s : State), Spec.benchmarks cs = 0 →
      (run s cs).1.bench = s.bench := by
    intro cs
    induction cs with
    | nil => intros; rfl
    | cons c cs ih =>
      intro s h
      cases c with
      | benchmarkFile p => simp [Spec.benchmarks] at h
      | logger =>
        have h' : Spec.benchmarks cs = 0 := by simpa [Spec.benchmarks] using h
        simp only [run]
        rw [ih _ h']
        simp only [step, logger]
        cases s.shared with
        | some x => rfl
        | none => cases create s.names "console" <;> rfl
      | setLevel l =>
        have h' : Spec.benchmarks cs = 0 := by simpa [Spec.benchmarks] using h
        simp only [run]
        rw [ih _ h']
        simp only [step, logger]
        cases s.shared with
        | some x => rfl
        | none => cases create s.names "console" <;> rfl
      | setLogger o =>
        have h' : Spec.benchmarks cs = 0 := by simpa [Spec.benchmarks] using h
        simp only [run]
        rw [ih _ h']
        cases o with
        | some k => rfl
        | none => simp only [step]; cases create s.names "null_logger" <;> rfl
  have h1 : (run (State.init names) [.benchmarkFile p]).1 =
      { State.init names with names := "benchmark" :: names, bench := some p } := by
    simp [run, step, State.init, create, hfree]
  have hmem : "benchmark" ∈ (run (State.init names) ([.benchmarkFile p] ++ between)).1.names := by
    rw [hap, h1]; exact names_run _ _ _ List.mem_cons_self
  have hb : (run (State.init names) ([.benchmarkFile p] ++ between)).1.bench = some p := by
    rw [hap, h1, hbench _ _ hno]
  refine ⟨(run (State.init names) ([.benchmarkFile p] ++ between)).2, ?_, ?_⟩
  · rw [run_append]
    refine congrArg _ ?_
    generalize (run (State.init names) ([.benchmarkFile p] ++ between)).1 = s at hmem
    have : create s.names "benchmark" = none := by simp [create, hmem]
    simp [run, step, this]
  · rw [hap]
    generalize (run (State.init names) ([.benchmarkFile p] ++ between)).1 = s at hmem hb
    have : create s.names "benchmark" = none := by simp [create, hmem]
    simp [run, step, this, hb]

/-! ## Several threads -/

/-- All threads have their logger, or none throws: the state when the pointer is set. -/
theorem threads_set (s : Threads) (h : Handle) (hs : s.shared = some h)
    (hpc : ∀ p ∈ s.pc, p = .start ∨ p = .ready ∨ p = .returned h) (sched : List Nat) :
    ∀ p ∈ (s.run sched).pc, p = .start ∨ p = .ready ∨ p = .returned h := by
  induction sched generalizing s with
  | nil => exact hpc
  | cons t sched ih =>
    have hset : ∀ q, q = .start ∨ q = .ready ∨ q = .returned h →
        ∀ p ∈ s.pc.set t q, p = .start ∨ p = .ready ∨ p = .returned h := by
      intro q hq p hp
      rcases List.mem_or_eq_of_mem_set hp with hp | rfl
      · exact hpc p hp
      · exact hq
    show ∀ p ∈ ((s.step t).run sched).pc, _
    cases ht : s.pc[t]? with
    | none =>
      have : s.step t = s := by simp [Threads.step, ht]
      rw [this]; exact ih s hs hpc
    | some q =>
      rcases hpc q (List.mem_of_getElem? ht) with rfl | rfl | rfl
      · have : s.step t = { s with pc := s.pc.set t .ready } := by simp [Threads.step, ht, hs]
        rw [this]; exact ih _ hs (hset _ (Or.inr (Or.inl rfl)))
      · have : s.step t = { s with pc := s.pc.set t (.returned h) } := by
          simp [Threads.step, ht, hs]
        rw [this]; exact ih _ hs (hset _ (Or.inr (Or.inr rfl)))
      · have : s.step t = s := by simp [Threads.step, ht]
        rw [this]; exact ih s hs hpc

/-- **C65** for threads started after the first call of `logger()` or `set_logger`: in every schedule
no thread throws, and those that return get the logger. -/
theorem C65_threads_partial (names : List String) (h : Handle) (n : Nat) (sched : List Nat) :
    ∀ p ∈ (Threads.run ⟨names, some h, List.replicate n .start⟩ sched).pc,
      p ≠ .threw ∧ ∀ h', p = .returned h' → h' = h := by
  intro p hp
  have := threads_set ⟨names, some h, List.replicate n .start⟩ h rfl
    (fun q hq => Or.inl (List.eq_of_mem_replicate hq)) sched p hp
  rcases this with rfl | rfl | rfl <;> simp

example : (Threads.run ⟨[], some .null, [.start, .start]⟩ [0, 1, 1, 0]).pc =
    [.returned .null, .returned .null] := by decide +kernel

/-- **C65 violated**: of any number of threads that make the first calls of `logger()` and see the null
pointer before one has created the logger, all but the first throw. -/
theorem C65_threads_violated (names : List String) (hfree : "console" ∉ names) (n : Nat) :
    (Threads.run ⟨names, none, List.replicate (n + 1) .start⟩
      (List.range (n + 1) ++ List.range (n + 1))).pc = .created :: List.replicate n .threw := by
  -- first round: all threads see the null pointer
  have h1 : ∀ (l r : List Pc), (Threads.run ⟨names, none, l ++ List.replicate r.length .start⟩
      (List.range' l.length r.length)) =
        ⟨names, none, l ++ List.replicate r.length .sawNull⟩ := by
    intro l r
    induction r generalizing l with
    | nil => simp [Threads.run]
    | cons x r ih =>
      rw [List.length_cons, List.range'_succ, List.replicate_succ]
      show Threads.run (Threads.step _ l.length) _ = _
      have hst : Threads.step ⟨names, none, l ++ .start :: List.replicate r.length .start⟩ l.length =
          ⟨names, none, (l ++ [.sawNull]) ++ List.replicate r.length .start⟩ := by
        simp [Threads.step]
      rw [hst]
      have := ih (l ++ [.sawNull])
      rw [List.length_append, List.length_singleton] at this
      rw [this]
      simp [List.replicate_succ]
  -- second round, from the second thread on: all throw
  have h2 : ∀ (l r : List Pc) (nm : List String), "console" ∈ nm →
      (Threads.run ⟨nm, none, l ++ List.replicate r.length .sawNull⟩
        (List.range' l.length r.length)) = ⟨nm, none, l ++ List.replicate r.length .threw⟩ := by
    intro l r nm hnm
    induction r generalizing l with
    | nil => simp [Threads.run]
    | cons x r ih =>
      rw [List.length_cons, List.range'_succ, List.replicate_succ]
      show Threads.run (Threads.step _ l.length) _ = _
      have hst : Threads.step ⟨nm, none, l ++ .sawNull :: List.replicate r.length .sawNull⟩ l.length =
          ⟨nm, none, (l ++ [.threw]) ++ List.replicate r.length .sawNull⟩ := by
        simp [Threads.step, create, hnm]
      rw [hst]
      have := ih (l ++ [.threw])
      rw [List.length_append, List.length_singleton] at this
      rw [this]
      simp [List.replicate_succ]
  have hrun : ∀ (s : Threads) (a b : List Nat), s.run (a ++ b) = (s.run a).run b := by
    intro s a b; simp [Threads.run]
  have e1 := h1 [] (List.replicate (n + 1) .start)
  simp only [List.nil_append, List.length_replicate, List.length_nil] at e1
  rw [hrun, List.range_eq_range', e1, List.range'_succ, List.replicate_succ]
  show (Threads.run (Threads.step _ 0) _).pc = _
  have hst : Threads.step ⟨names, none, .sawNull :: List.replicate n .sawNull⟩ 0 =
      ⟨"console" :: names, none, [.created] ++ List.replicate n .sawNull⟩ := by
    simp [Threads.step, create, hfree]
  rw [hst]
  have e2 := h2 [.created] (List.replicate n .start) ("console" :: names) (by simp)
  simp only [List.length_replicate, List.length_singleton] at e2
  rw [e2]
  rfl

example : (Threads.run ⟨[], none, [.start, .start]⟩ [0, 1, 0, 1, 0, 0]).pc =
    [.returned .console, .threw] := by decide +kernel

/-! ## Measurements -/

theorem measure_fold (calls : List BenchCall) (b : Bench) (h : b.stopped = false) :
    (calls.foldl Bench.step b).stopped = false ∧ (calls.foldl Bench.step b).begin = b.begin ∧
    (calls.foldl Bench.step b).count = Spec.lastCount b.count calls := by
  induction calls generalizing b with
  | nil => exact ⟨h, rfl, rfl⟩
  | cons c calls ih =>
    cases c with
    | stop t =>
      have := ih (b.step (.stop t)) (by simp [Bench.step, h])
      simpa [Bench.step, h, Spec.lastCount] using this
    | stopCount t n =>
      have := ih (b.step (.stopCount t n)) (by simp [Bench.step, h])
      simpa [Bench.step, h, Spec.lastCount] using this
    | setCount n =>
      have := ih (b.step (.setCount n)) (by simp [Bench.step, h])
      simpa [Bench.step, h, Spec.lastCount] using this

/-- **C65**: what is reported, exactly, for all calls: the count given last, and the time until the
destruction, whatever `stop` was called before. -/
theorem C65_report (begin destroyed : Nat) (calls : List BenchCall) :
    measure begin calls destroyed =
      ⟨Spec.lastCount 0 calls, destroyed - begin, max (Spec.lastCount 0 calls) 1⟩ := by
  obtain ⟨h1, h2, h3⟩ := measure_fold calls (Bench.new begin) rfl
  unfold measure Bench.destroy
  generalize calls.foldl Bench.step (Bench.new begin) = b at h1 h2 h3
  have h3' : b.count = Spec.lastCount 0 calls := h3
  have h2' : b.begin = begin := h2
  simp only [Bench.step, h1, Bool.false_eq_true, if_false, h2', h3']
  congr 1
  split <;> omega

/-- **C65** for measurements without `stop`, as all those of the library: the time reported is the time
of the first `stop` or of the destruction. -/
theorem C65_time_partial (begin destroyed : Nat) (calls : List BenchCall)
    (hno : ∀ c ∈ calls, ∃ n, c = .setCount n) :
    (measure begin calls destroyed).time = Spec.stopTime calls destroyed - begin := by
  rw [C65_report]
  show destroyed - begin = _
  congr 1
  induction calls with
  | nil => rfl
  | cons c calls ih =>
    obtain ⟨n, rfl⟩ := hno c (by simp)
    exact ih (fun c hc => hno c (by simp [hc]))

example : measure 100 [.setCount 5] 130 = ⟨5, 30, 5⟩ := by decide +kernel

/-- **C65 violated**: a measurement stopped before its destruction reports too long a time: the flag
`stopped_` is never set. -/
theorem C65_time_violated (begin stopped destroyed : Nat) (h1 : begin ≤ stopped)
    (h2 : stopped < destroyed) (calls : List BenchCall) :
    Spec.stopTime (.stop stopped :: calls) destroyed - begin <
      (measure begin (.stop stopped :: calls) destroyed).time := by
  rw [C65_report]
  show stopped - begin < destroyed - begin
  omega

example : (measure 100 [.stopCount 110 3] 130) = ⟨3, 30, 3⟩ := by decide +kernel

end Verif.Logger
