
/-!
# The shared logger and the measurements

Code: `/repo/lib/utils/logger.cpp`, `/repo/lib/include/sse/schemes/utils/logger.hpp`.

spdlog is external.  Of it is used: creating a logger registers its name, and throws `spdlog_ex` if a
logger of this name is registered already; a name stays registered.  Nobody else registers or drops
names, except for the names `names` taken at the start.
-/

namespace Verif.Logger

/-- A logger: created by the library, or given by the user. -/
inductive Handle where
  /-- `stderr_color_mt("console")` -/
  | console
  /-- `null_sink_mt`, `"null_logger"` -/
  | null
  /-- a logger of the user -/
  | user (k : Nat)
  deriving DecidableEq

/-- The names registered in spdlog, `shared_logger_` (logger.cpp L35), the file of
`benchmark_logger_` (L62), and the levels of the loggers. -/
structure State where
  names : List String
  shared : Option Handle
  bench : Option String
  level : Handle → Nat

/-- The start of the process; the level of a new logger is `info`, number 2. -/
def State.init (names : List String) : State := ⟨names, none, none, fun _ => 2⟩

/-- The calls of a user. -/
inductive Call where
  | logger
  | setLogger (h : Option Nat)
  | setLevel (l : Nat)
  | benchmarkFile (path : String)

/-- What the user gets. -/
inductive Res where
  | returned (h : Handle)
  | done
  /-- `spdlog_ex` -/
  | threw
  deriving DecidableEq

/-- Creation of a logger by spdlog: the new names, or an exception. -/
def create (names : List String) (name : String) : Option (List String) :=
  if names.contains name then none else some (name :: names)

/-- `logger()` (logger.cpp L37-44): the logger (`none`: exception) and the state. -/
def logger (s : State) : Option Handle × State :=
  match s.shared with
  | some h => (some h, s)
  | none =>
    match create s.names "console" with
    | some names => (some .console, { s with names := names, shared := some .console })
    | none => (none, s)

/-- One call: `logger()`, `set_logger` (L46-54), `set_logging_level` (L56-59),
`Benchmark::set_benchmark_file` (L64-71). -/
def step (s : State) : Call → State × Res
  | .logger =>
    match logger s with
    | (some h, s') => (s', .returned h)
    | (none, s') => (s', .threw)
  | .setLogger (some k) => ({ s with shared := some (.user k) }, .done)
  | .setLogger none =>
    match create s.names "null_logger" with
    | some names => ({ s with names := names, shared := some .null }, .done)
    | none => (s, .threw)
  | .setLevel l =>
    match logger s with
    | (some h, s') => ({ s' with level := fun x => if x = h then l else s'.level x }, .done)
    | (none, s') => (s', .threw)
  | .benchmarkFile path =>
    match create s.names "benchmark" with
    | some names => ({ s with names := names, bench := some path }, .done)
    | none => (s, .threw)

/-- A sequence of calls. -/
def run : State → List Call → State × List Res
  | s, [] => (s, [])
  | s, call :: calls =>
    let (s', r) := step s call
    let (s'', rs) := run s' calls
    (s'', r :: rs)

/-! ## The first calls of `logger()` by several threads -/

/-- Where a thread is in `logger()` (logger.cpp L39, L41, L43). -/
inductive Pc where
  /-- before the test of `shared_logger_` -/
  | start
  /-- has seen a null pointer -/
  | sawNull
  /-- has created the logger -/
  | created
  /-- has assigned it, or seen a logger -/
  | ready
  | returned (h : Handle)
  | threw
  deriving DecidableEq

/-- Shared names and pointer, positions of the threads. -/
structure Threads where
  names : List String
  shared : Option Handle
  pc : List Pc

/-- One step of thread `t`.  (In C++ the concurrent accesses to `shared_logger_` are a data race; here
each access is one step.) -/
def Threads.step (s : Threads) (t : Nat) : Threads :=
  match s.pc[t]? with
  | some .start =>
    { s with pc := s.pc.set t (if s.shared.isSome then .ready else .sawNull) }
  | some .sawNull =>
    match create s.names "console" with
    | some names => { s with names := names, pc := s.pc.set t .created }
    | none => { s with pc := s.pc.set t .threw }
  | some .created => { s with shared := some .console, pc := s.pc.set t .ready }
  | some .ready =>
    match s.shared with
    | some h => { s with pc := s.pc.set t (.returned h) }
    | none => s
  | _ => s

/-- A schedule. -/
def Threads.run (s : Threads) (sched : List Nat) : Threads := sched.foldl Threads.step s

/-! ## Measurements -/

/-- `Benchmark` (logger.hpp L44-71).  Times are readings of the clock. -/
structure Bench where
  begin : Nat
  end_ : Nat
  count : Nat
  stopped : Bool

/-- The calls between construction and destruction, with the time at which they are made. -/
inductive BenchCall where
  | stop (time : Nat)
  | stopCount (time count : Nat)
  | setCount (count : Nat)

/-- The constructor (logger.cpp L74-78). -/
def Bench.new (time : Nat) : Bench := ⟨time, 0, 0, false⟩

/-- `stop()`, `stop(count)` (logger.cpp L80-93), `set_count` (logger.hpp L55-58). -/
def Bench.step (b : Bench) : BenchCall → Bench
  | .stop time => if b.stopped then b else { b with end_ := time }
  | .stopCount time count => if b.stopped then b else { b with end_ := time, count := count }
  | .setCount count => { b with count := count }

/-- What is written by the destructor (logger.cpp L95-111): the count, the time, and the number by
which the time is divided for the time per item. -/
structure Report where
  count : Nat
  time : Nat
  divisor : Nat
  deriving DecidableEq

/-- The destructor at time `time`. -/
def Bench.destroy (b : Bench) (time : Nat) : Report :=
  let b := b.step (.stop time)
  { count := b.count, time := b.end_ - b.begin, divisor := if b.count > 1 then b.count else 1 }

/-- A measurement. -/
def measure (begin : Nat) (calls : List BenchCall) (destroyed : Nat) : Report :=
  (calls.foldl Bench.step (Bench.new begin)).destroy destroyed

end Verif.Logger
