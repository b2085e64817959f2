import Verif.Runner.Setup

/-!
# Calls of a service at the same time as its set-up

gRPC runs each call of a service in a thread of its pool, and `setup`, `insert` and `search` of the two services
(`/repo/lib/sophos/sophos_server_runner.cpp` L76-294, `/repo/lib/diana/server_runner.cpp` L101-344) share the members `server_` and
`token_wrapper_` without a lock. Here each access to a member or to the file system is one step, and the steps of the calls are interleaved.
The operations and their failures are those of `Verif.Runner.Setup`.
-/

namespace Verif.Runner

/-- A call of the service -/
inductive Call where
  /-- a set-up message with this key, and which of its operations fail -/
  | setup (key : Bytes) (p : Plan)
  | insert
  | search

/-- Where a call is -/
inductive Pc where
  /-- before the check of `server_` (sophos L83, L165, L211, L253; diana L109, L200, L258, L300) -/
  | start
  /-- before `utility::exists` (sophos L95; diana L121) -/
  | exist
  /-- before `create_directory` (sophos L103; diana L129) -/
  | mkdir
  /-- before the construction of the server (sophos L119; diana L145) -/
  | construct
  /-- before the assignment of the new server to `server_` (same line) -/
  | assign
  /-- before the key file is opened (sophos L133; diana L158) -/
  | keyOpen
  /-- before the key is written to it (sophos L142; diana L169-177) -/
  | keyWrite
  /-- Diana, before the assignment of `token_wrapper_` (L179-187) -/
  | wrapper
  /-- after the check of `server_`, before the use of the members (`message_to_request`, `server_->insert`, `server_->search`) -/
  | use
  | done (r : Reply)
  deriving DecidableEq, Repr

/-- The next step of a call: where it is afterwards, and the new disk and members. `mkdir` fails if there is something. -/
def callStep (sch : Scheme) (valid : Bytes → Bool) (c : Call) (pc : Pc) (d : Disk) (pr : Proc) : Pc × Disk × Proc :=
  match c, pc with
  | .setup _ _, .start => if pr.core then (.done (.status .failedPrecondition), d, pr) else (.exist, d, pr)
  | .setup _ _, .exist => if d = .absent then (.mkdir, d, pr) else (.done (.status .alreadyExists), d, pr)
  | .setup _ p, .mkdir =>
    if p.mkdirFails = false ∧ d = .absent then (.construct, .dir false none, pr) else (.done (.status .permissionDenied), d, pr)
  | .setup key p, .construct =>
    match p.openFails with
    | some left => (.done (.status .failedPrecondition), .dir left none, ⟨false, pr.key⟩)
    | none =>
      if sch = .sophos ∧ valid key = false then (.done (.status .failedPrecondition), .dir true none, ⟨false, pr.key⟩)
      else (.assign, .dir true none, pr)
  | .setup key _, .assign => (.keyOpen, d, ⟨true, if sch = .sophos then some key else pr.key⟩)
  | .setup _ p, .keyOpen =>
    if p.keyOpenFails then (.done (.status .permissionDenied), d, pr) else (.keyWrite, .dir true (some []), pr)
  | .setup key p, .keyWrite =>
    match sch with
    | .sophos => (.done (.status .ok), .dir true (some (key.take p.written)), pr)
    | .diana =>
      if valid key = false then (.done (.status .invalidArgument), d, pr) else (.wrapper, .dir true (some (key.take p.written)), pr)
  | .setup key _, .wrapper => (.done (.status .ok), d, ⟨pr.core, some key⟩)
  | .insert, .start | .search, .start => if pr.core then (.use, d, pr) else (.done (.status .failedPrecondition), d, pr)
  | .insert, .use => (.done (insert pr), d, pr)
  | .search, .use => (.done (search pr), d, pr)
  | _, pc => (pc, d, pr)

/-- The service and its calls; `crashed`: a null pointer was dereferenced. -/
structure Calls where
  disk : Disk
  proc : Proc
  pc : Nat → Pc
  crashed : Bool

/-- A step of the call number `i` -/
def Calls.step (sch : Scheme) (valid : Bytes → Bool) (calls : List Call) (s : Calls) (i : Nat) : Calls :=
  if s.crashed then s
  else match calls[i]? with
    | none => s
    | some c =>
      let r := callStep sch valid c (s.pc i) s.disk s.proc
      ⟨r.2.1, r.2.2, fun j => if j = i then r.1 else s.pc j, decide (r.1 = .done .nullPointer)⟩

/-- The steps of the calls in a given order -/
def Calls.run (sch : Scheme) (valid : Bytes → Bool) (calls : List Call) (s : Calls) (order : List Nat) : Calls :=
  order.foldl (Calls.step sch valid calls) s

/-- A service that was never set up, before all calls -/
def Calls.fresh : Calls := ⟨.absent, ⟨false, none⟩, fun _ => .start, false⟩

/-- The next step of the call writes the member `server_`. -/
def writesServer : Call → Pc → Bool
  | .setup _ _, .assign => true
  | _, _ => false

/-- The next step of the call reads the member `server_`. -/
def readsServer : Call → Pc → Bool
  | _, .start => true
  | .insert, .use | .search, .use => true
  | _, _ => false

end Verif.Runner
