import Verif.Cli.Args

/-!
# The life of a server process

`main` and `exit_handler` of `/repo/src/sophos_server.cpp` and `/repo/src/diana_server.cpp`, with the
constructor, `set_async_search`, `wait` and `shutdown` of the runners
(`/repo/lib/sophos/sophos_server_runner.cpp` L345-376, `/repo/lib/diana/server_runner.cpp` L408-439).

The main thread, the calls of clients and the signals are interleaved in any way.  External:

* gRPC: `BuildAndStart` returns a null pointer if the port cannot be used; calls are accepted from
  `BuildAndStart` to `Shutdown`; `Shutdown` (without deadline) does not cancel calls; `Wait` returns after
  `Shutdown` when no call is pending.
* signals: before `std::signal` the default action ends the process; a handler is run in some thread.  The
  handler logs a message, for which it needs the mutex of the sink: if the thread that it interrupts holds this
  mutex, it waits for ever.

Simplified: the handler is one step; the three calls of `std::signal` are one step.
-/

namespace Verif.Cli.Server

/-- Where the main thread is, or how the process ended. -/
inductive Pc where
  /-- before `std::signal` (sophos_server.cpp L32-33) -/
  | init
  /-- the options, with log messages (L39-83) -/
  | options
  /-- `new SophosServerRunner`, construction of the service (sophos_server_runner.cpp L351) -/
  | construct
  /-- `BuildAndStart` (sophos_server_runner.cpp L353-354) -/
  | build
  /-- assignment of the global pointer (sophos_server.cpp L85) -/
  | assign
  /-- `set_async_search` (L87) -/
  | setMode
  /-- `wait` (L92) -/
  | wait
  /-- `cleanup_crypto_lib`, last message (L94-96) -/
  | cleanup
  /-- `return` or `exit` with this status -/
  | exited (status : Nat)
  /-- ended by the default action of a signal -/
  | killed
  /-- exception not caught -/
  | aborted
  /-- null pointer used -/
  | segv
  /-- a signal handler waits for a mutex held by the interrupted thread; it holds up the process -/
  | deadlock
deriving DecidableEq

/-- The process has ended, or cannot go on. -/
def Pc.over : Pc → Bool
  | .exited _ | .killed | .aborted | .segv | .deadlock => true
  | _ => false

/-- What the environment gives. -/
structure Env where
  scheme : Scheme
  args : List Arg
  /-- the service can be constructed for the database (C20) -/
  dirOk : Arg → Bool
  /-- the port can be used -/
  portFree : Bool

/-- The process. -/
structure State where
  pc : Pc
  /-- what the options say -/
  opts : ServerArgs
  /-- `async_search_` of the service; set in its constructor (sophos_server_runner.cpp L44) -/
  async : Bool
  /-- the global pointer is not null -/
  ptr : Bool
  /-- `server_` of the runner is not null -/
  started : Bool
  /-- `Shutdown` was called -/
  shut : Bool
  /-- calls of clients being worked on -/
  calls : Nat
  /-- the searches done: asynchronously? -/
  served : List Bool
deriving DecidableEq

/-- The start of the process -/
def State.init : State := ⟨.init, ⟨[], true⟩, true, false, false, false, 0, []⟩

/-- What happens. -/
inductive Ev where
  /-- a step of the main thread -/
  | main
  /-- SIGTERM, SIGINT or SIGQUIT; in a thread that is writing a log message or not -/
  | signal (inLog : Bool)
  /-- a call of a client begins -/
  | call
  /-- a call being worked on does a search (sophos_server_runner.cpp L155-158) -/
  | search
  /-- a call ends -/
  | finish
deriving DecidableEq

/-- A step of the main thread; `none` when it waits or the process is over. -/
def mainStep (e : Env) (s : State) : Option State :=
  match s.pc with
  | .init => some { s with pc := .options }
  | .options =>
    match serverArgs e.scheme e.args with
    | .error .badOption => some { s with pc := .exited 1 }
    | .error .unhandled => some { s with pc := .exited 255 }
    | .error .stod => some { s with pc := .aborted }
    | .ok o => some { s with pc := .construct, opts := o }
  | .construct => some { s with pc := if e.dirOk s.opts.db then .build else .aborted }
  | .build => some { s with pc := .assign, started := e.portFree }
  | .assign => some { s with pc := .setMode, ptr := true }
  | .setMode => some { s with pc := .wait, async := s.opts.async }
  | .wait =>
    if !s.started then some { s with pc := .segv }
    else if s.shut && s.calls == 0 then some { s with pc := .cleanup }
    else none
  | .cleanup => some { s with pc := .exited 0 }
  | _ => none

/-- Whether some thread may be writing a log message: the main thread (sophos_server.cpp L70-83, L96), or a call
(setup: sophos_server_runner.cpp L86-141; messages of level `trace` are not written). -/
def State.mayLog (s : State) : Bool := s.pc == .options || s.pc == .cleanup || 0 < s.calls

/-- A signal, `exit_handler` (sophos_server.cpp L20-27, diana_server.cpp L21-28). -/
def signalStep (s : State) (inLog : Bool) : Option State :=
  if s.pc.over then none
  else if s.pc = .init then some { s with pc := .killed }
  else if inLog then (if s.mayLog then some { s with pc := .deadlock } else none)
  else if !s.ptr then some s
  else if !s.started then some { s with pc := .segv }
  else some { s with shut := true }

/-- One step; `none` if it is not possible. -/
def step (e : Env) (s : State) : Ev → Option State
  | .main => mainStep e s
  | .signal inLog => signalStep s inLog
  | .call => if s.started && !s.shut && !s.pc.over then some { s with calls := s.calls + 1 } else none
  | .search =>
    if 0 < s.calls && !s.pc.over then some { s with served := s.served ++ [s.async] } else none
  | .finish => if 0 < s.calls && !s.pc.over then some { s with calls := s.calls - 1 } else none

/-- A run. -/
def run (e : Env) : State → List Ev → Option State
  | s, [] => some s
  | s, ev :: evs =>
    match step e s ev with
    | none => none
    | some s' => run e s' evs

end Verif.Cli.Server
