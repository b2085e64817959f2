import Verif.Sophos.Model
import Verif.Diana.Model

/-!
# Update sessions of the gRPC clients

Model of `insert`, `insert_in_session`, `start_update_session`, `end_update_session` and `search` of
`SophosClientRunner` (`/repo/lib/sophos/sophos_client_runner.cpp` L270-381) and `DianaClientRunner`
(`/repo/lib/diana/client_runner.cpp` L285-433) with `insert` and `bulk_insert` of the servers
(`/repo/lib/sophos/sophos_server_runner.cpp` L249-294, `/repo/lib/diana/server_runner.cpp` L296-343), as
interleavings of calls from any number of threads, of the server and of the network. What can be observed
is recorded in a trace.

A request for an insertion outside a session is acknowledged by a status; in a session the messages are
written to a stream, which the server reads in order, and only `Finish` waits for the server. An error of
the stream or a bad status is only logged: the calls return normally.

Simplifications. A request is made in one step, i.e. the races of the counters are those of C06 and not
considered here. A search is one step (see C52 for searches during insertions). The mutex of the session is
released if `Write` throws; the two plain members `writer` and `is_up` are read and written atomically. Diana's
`bulk_insert` also flushes its storage at the end (no effect on what searches see, not modelled).
-/

namespace Verif.Runner.Sess

open Verif

/-- What the runners use of a scheme: client state, update requests, server state -/
structure Scheme (Kw : Type) where
  Cli : Type
  Upd : Type
  Srv : Type
  cli0 : Cli
  srv0 : Srv
  /-- `insertion_request` -/
  request : Cli → Kw → Index → Upd × Cli
  /-- `insert` of the server -/
  store : Srv → Upd → Srv
  /-- `search_request` followed by `search` of the server; `none` if it throws -/
  find : Cli → Srv → Kw → Option (List Index)

/-- Sophos -/
def sophos {Kw Seed ST DK : Type} [DecidableEq Kw] (c : Sophos.Crypto Kw Seed ST DK) (garbage : ST × DK) :
    Scheme Kw where
  Cli := Map Kw UInt32
  Upd := Sophos.UpdateReq
  Srv := Sophos.Edb
  cli0 := Map.empty
  srv0 := Map.empty
  request := Sophos.insertionRequest c
  store := Sophos.serverInsert
  find := fun m edb w => some (Sophos.search c edb (Sophos.searchRequest c garbage m w))

/-- Diana; the client sends nothing if the keyword is unknown (client_runner.cpp L299-301). -/
def diana {Kw : Type} [DecidableEq Kw] (c : Diana.Crypto Kw Index) : Scheme Kw where
  Cli := Map Kw UInt32
  Upd := Diana.UpdateReq Index
  Srv := Diana.Edb Index
  cli0 := Map.empty
  srv0 := Map.empty
  request := Diana.insertionRequest c
  store := Diana.serverInsert
  find := fun m edb w =>
    if (Diana.searchRequest c m w).addCount = 0 then some []
    else (Diana.search c edb (Diana.searchRequest c m w) false).map (·.1)

/-- The calls of the users; `insertList` is the `insert_in_session` for a list, of Diana only -/
inductive Call (Kw : Type) where
  | insert (w : Kw) (i : Index)
  | insertIn (w : Kw) (i : Index)
  | insertList (l : List (Kw × Index))
  | start
  | finish
  | search (w : Kw)
deriving DecidableEq, Repr

/-- What can be observed. Calls are numbered in the order in which they begin, and requests in the order in
which they are made. -/
inductive Event (Kw : Type) where
  | called (n : Nat) (c : Call Kw)
  /-- call `n` obtained a request for this insertion -/
  | requested (n : Nat) (w : Kw) (i : Index)
  /-- the server stored request number `p` -/
  | stored (p : Nat)
  | returned (n : Nat)
  | threw (n : Nat)
  /-- the search `n` for `w` returned `r` -/
  | found (n : Nat) (w : Kw) (r : Option (List Index))
deriving DecidableEq, Repr

/-- A message: the number of the request and its content -/
abbrev Msg {Kw : Type} (S : Scheme Kw) := Nat × S.Upd

/-- How far a call is -/
inductive Pc {Kw : Type} (S : Scheme Kw) where
  | begin
  /-- `insert`, `writer` was null -/
  | direct
  /-- the message of `insert` is to be sent -/
  | rpc (m : Msg S)
  /-- `insert_in_session` -/
  | single
  /-- the request is made and `is_up` is to be tested -/
  | check (ms : List (Msg S))
  /-- `is_up` was tested, requests for a list are to be made -/
  | list
  /-- `mtx.lock()` -/
  | lock (ms : List (Msg S))
  /-- these messages are to be written -/
  | write (ms : List (Msg S))
  /-- `end_update_session`: before `WritesDone`, `Finish`, `is_up = false` and the resets -/
  | writesDone
  | wait
  | down
  | reset
  /-- `start_update_session`: before the assignments of `writer` and of `is_up` -/
  | opening
  | up
  | over

/-- A stream: messages that the server did not read, whether `WritesDone` was called, and whether the
connection is broken -/
structure Stream {Kw : Type} (S : Scheme Kw) where
  queue : List (Msg S)
  done : Bool
  broken : Bool

/-- Undefined behaviour: the null pointer `writer` is dereferenced, or the stream is used after
`WritesDone` (gRPC aborts) -/
inductive Fault where
  | null
  | writeAfterDone
deriving DecidableEq, Repr

/-- The state; `bulk_update_state_` is `writer`, `isUp` and `mtx` -/
structure State {Kw : Type} (S : Scheme Kw) where
  cli : S.Cli
  srv : S.Srv
  calls : List (Call Kw × Pc S)
  streams : List (Stream S)
  /-- the number of a stream -/
  writer : Option Nat
  isUp : Bool
  /-- the call that holds `mtx` -/
  mtx : Option Nat
  fault : Option Fault
  trace : List (Event Kw)

/-- A new client and a new server -/
def init {Kw : Type} (S : Scheme Kw) : State S := ⟨S.cli0, S.srv0, [], [], none, false, none, none, []⟩

/-- What may happen -/
inductive Act (Kw : Type) where
  | call (c : Call Kw)
  /-- call number `n` goes on. -/
  | step (n : Nat)
  /-- the server does not answer the insertion of call number `n`, or answers by an error; `st` if it
  stored the message. -/
  | rpcFail (n : Nat) (st : Bool)
  /-- the server reads a message of stream `k`. -/
  | recv (k : Nat)
  /-- stream `k` breaks, or the server refuses it; what was not read is lost. -/
  | break (k : Nat)
deriving DecidableEq, Repr

variable {Kw : Type} {S : Scheme Kw}

/-- The number of requests made so far -/
def numReqs (t : List (Event Kw)) : Nat :=
  t.countP fun e => match e with | .requested _ _ _ => true | _ => false

/-- `insertion_request` for call `n` -/
def State.request (s : State S) (n : Nat) (w : Kw) (i : Index) : State S × Msg S :=
  let r := S.request s.cli w i
  ({ s with cli := r.2, trace := s.trace ++ [.requested n w i] }, (numReqs s.trace, r.1))

/-- `bulk_insertion_request` (equal to a sequence of `insertion_request`, see C10) -/
def State.requests (s : State S) (n : Nat) : List (Kw × Index) → State S × List (Msg S)
  | [] => (s, [])
  | (w, i) :: l =>
    let r := s.request n w i
    let rs := State.requests r.1 n l
    (rs.1, r.2 :: rs.2)

/-- The server stores a message. -/
def State.store (s : State S) (m : Msg S) : State S :=
  { s with srv := S.store s.srv m.2, trace := s.trace ++ [.stored m.1] }

/-- Call `n` is now at `pc`. -/
def State.goto (s : State S) (n : Nat) (pc : Pc S) : State S :=
  match s.calls[n]? with
  | some (c, _) => { s with calls := s.calls.set n (c, pc) }
  | none => s

/-- Call `n` returns. -/
def State.ret (s : State S) (n : Nat) : State S :=
  { s.goto n .over with trace := s.trace ++ [.returned n] }

/-- Call `n` throws. -/
def State.throw (s : State S) (n : Nat) : State S :=
  { s.goto n .over with trace := s.trace ++ [.threw n] }

/-- One step of the calls, where call `n` is `c` and is at `pc` (line numbers of the Sophos runner, then of
the Diana runner) -/
def State.advance (s : State S) (n : Nat) (c : Call Kw) (pc : Pc S) : State S :=
  match pc, c with
  -- `insert` (L309; L328)
  | .begin, .insert _ _ => s.goto n (if s.writer.isSome then .single else .direct)
  | .direct, .insert w i =>
    let r := s.request n w i
    r.1.goto n (.rpc r.2)
  | .rpc m, _ => (s.store m).ret n
  -- `insert_in_session` (L326-341; L350-366): the request comes before the test
  | .begin, .insertIn _ _ => s.goto n .single
  | .single, .insert w i =>
    let r := s.request n w i
    r.1.goto n (.check [r.2])
  | .single, .insertIn w i =>
    let r := s.request n w i
    r.1.goto n (.check [r.2])
  | .check ms, _ => if s.isUp then s.goto n (.lock ms) else s.throw n
  -- `insert_in_session` for a list (L369-393 of the Diana runner): the test comes before the requests
  | .begin, .insertList _ => if s.isUp then s.goto n .list else s.throw n
  | .list, .insertList l =>
    let r := s.requests n l
    r.1.goto n (.lock r.2)
  | .lock ms, _ =>
    match s.mtx with
    | none => { s.goto n (.write ms) with mtx := some n }
    | some _ => s
  | .write [], _ => { s.ret n with mtx := none }
  | .write (m :: ms), _ =>
    match s.writer with
    | none => { s with fault := some .null }
    | some k =>
      match s.streams[k]? with
      | none => s
      | some z =>
        if z.done then { s with fault := some .writeAfterDone }
        else if z.broken then s.goto n (.write [])
        else { s.goto n (.write ms) with streams := s.streams.set k { z with queue := z.queue ++ [m] } }
  -- `start_update_session` (L343-357; L395-409)
  | .begin, .start => if s.writer.isSome then s.ret n else s.goto n .opening
  | .opening, _ =>
    -- the assignment destroys the previous writer, if another thread made one.
    let old := match s.writer with
      | some k => s.streams.modify k (fun z => { z with queue := [], broken := true })
      | none => s.streams
    { s.goto n .up with streams := old ++ [⟨[], false, false⟩], writer := some s.streams.length }
  | .up, _ => { s.ret n with isUp := true }
  -- `end_update_session` (L359-380; L411-433)
  | .begin, .finish => if s.writer.isSome then s.goto n .writesDone else s.ret n
  | .writesDone, _ =>
    match s.writer with
    | none => { s with fault := some .null }
    | some k =>
      match s.streams[k]? with
      | none => s
      | some z =>
        if z.done then { s with fault := some .writeAfterDone }
        else { s.goto n .wait with streams := s.streams.set k { z with done := true } }
  | .wait, _ =>
    match s.writer with
    | none => { s with fault := some .null }
    | some k =>
      match s.streams[k]? with
      | none => s
      | some z => if z.queue.isEmpty then s.goto n .down else s
  | .down, _ => { s.goto n .reset with isUp := false }
  | .reset, _ => { s.ret n with writer := none }
  -- `search` (L270-301; L285-320)
  | .begin, .search w => { s.goto n .over with trace := s.trace ++ [.found n w (S.find s.cli s.srv w)] }
  | _, _ => s

/-- A step -/
def State.step (s : State S) (a : Act Kw) : State S :=
  match s.fault with
  | some _ => s
  | none =>
    match a with
    | .call c => { s with calls := s.calls ++ [(c, .begin)], trace := s.trace ++ [.called s.calls.length c] }
    | .step n =>
      match s.calls[n]? with
      | some (c, pc) => s.advance n c pc
      | none => s
    | .rpcFail n st =>
      match s.calls[n]? with
      | some (_, .rpc m) => (if st then s.store m else s).ret n
      | _ => s
    | .recv k =>
      match s.streams[k]? with
      | some ⟨m :: ms, d, false⟩ => { s.store m with streams := s.streams.set k ⟨ms, d, false⟩ }
      | _ => s
    | .break k => { s with streams := s.streams.modify k (fun z => { z with queue := [], broken := true }) }

/-- A schedule -/
def State.run (s : State S) (acts : List (Act Kw)) : State S := acts.foldl State.step s

end Verif.Runner.Sess
