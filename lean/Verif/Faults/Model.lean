import Verif.Sophos.Lemmas
import Verif.Diana.Lemmas

/-!
# Failures of the RocksDB calls

In the other modules the calls of RocksDB always succeed.  Here every `Get` and `Put` made by a
Sophos or Diana client or server may fail.  The code looks only at `s.ok()`: a failed `Get` is
treated like a missing key (`/repo/lib/utils/rocksdb_wrapper.cpp` L85-132,
`/repo/lib/include/sse/schemes/utils/rocksdb_wrapper.hpp` L148-183), and the servers ignore the
result of `put` (`/repo/lib/sophos/sophos_server.cpp` L490,
`/repo/lib/include/sse/schemes/diana/diana_server.hpp` L322).

Not modelled: failures of `Delete`, and values of a wrong length.
-/

namespace Verif.Faults

open Verif

/-- What happens to a `Put`.  A failed `Put` may have been applied or not: RocksDB gives no
guarantee when it reports, for instance, a failure to write its log. -/
inductive PutRes where
  | ok
  | failed
  | storedButFailed
deriving DecidableEq

/-- `s.ok()`. -/
def PutRes.isOk : PutRes → Bool
  | .ok => true
  | .failed => false
  | .storedButFailed => false

/-- `db_->Put(k, v)`. -/
def put {K V : Type} [DecidableEq K] (r : PutRes) (m : Map K V) (k : K) (v : V) : Map K V :=
  match r with
  | .ok => m.put k v
  | .failed => m
  | .storedButFailed => m.put k v

/-- What a `Get` returns (`none`: `s.ok()` is false). -/
def get {K V : Type} (ok : Bool) (m : Map K V) (k : K) : Option V := if ok then m k else none

variable {Kw V : Type} [DecidableEq Kw]

/-- `RocksDBCounter::get_and_increment` (rocksdb_wrapper.cpp L101-132): the returned boolean, the
value, and the store. -/
def getAndIncrement (getOk : Bool) (putRes : PutRes) (m : Map Kw UInt32) (w : Kw) :
    Bool × UInt32 × Map Kw UInt32 :=
  let v := Counter.nextValue (get getOk m w)
  (putRes.isOk, v, put putRes m w v)

/-- An operation of a user, with the fate of the RocksDB calls made for it. -/
inductive Op (Kw V : Type) where
  /-- insertion: `Get` and `Put` of the client, `Put` of the server. -/
  | insert (w : Kw) (i : V) (getOk : Bool) (putRes srvPut : PutRes)
  /-- search: `Get` of the client; the `p`-th `Get` of the server fails if `bad p`. -/
  | search (w : Kw) (getOk : Bool) (bad : Nat → Bool)

/-- What the user observes. -/
inductive Out (V : Type) where
  /-- the insertion returned normally -/
  | acked
  /-- an exception was thrown -/
  | error
  /-- the search returned normally -/
  | results (l : List V)

/-! ## Sophos -/

section sophos

variable {Seed ST DK : Type}

/-- The counter store as seen by a client whose `Get` fails (`ok = false`) or not. -/
def seen (ok : Bool) (m : Map Kw UInt32) : Map Kw UInt32 := fun w => get ok m w

/-- The loop of `SophosServer::search` (sophos_server.cpp L59-86), `p` iterations done and `n`
left. -/
def sophosLoop (c : Sophos.Crypto Kw Seed ST DK) (edb : Sophos.Edb) (bad : Nat → Bool) (k : DK) :
    Nat → Nat → ST → List Index
  | _, 0, _ => []
  | p, n + 1, st =>
    let (tok, msk) := Sophos.genUpdateTokenMasks c k st
    match get (!bad p) edb tok with
    | some v => Sophos.mask v msk :: sophosLoop c edb bad k (p + 1) n (c.eval st)
    | none => sophosLoop c edb bad k (p + 1) n (c.eval st)

/-- One operation on a Sophos client and server (sophos_client.cpp L83-169, sophos_server.cpp
L46-89, L484-491). -/
def sophosStep (c : Sophos.Crypto Kw Seed ST DK) (g : ST × DK) (s : Sophos.Sys Kw) :
    Op Kw Index → Sophos.Sys Kw × Out Index
  | .insert w i getOk putRes srvPut =>
    let (success, v, m) := getAndIncrement getOk putRes s.counters w
    if success then
      let r := Sophos.requestFor c w i v
      ({ counters := m, edb := put srvPut s.edb r.token r.index }, .acked)
    else ({ s with counters := m }, .error)
  | .search w getOk bad =>
    let req := Sophos.searchRequest c g (seen getOk s.counters) w
    (s, .results (sophosLoop c s.edb bad req.derivationKey 0 req.addCount.toNat req.token))

/-- A history of operations: what the user observes. -/
def sophosRun (c : Sophos.Crypto Kw Seed ST DK) (g : ST × DK) :
    Sophos.Sys Kw → List (Op Kw Index) → List (Out Index)
  | _, [] => []
  | s, op :: ops => (sophosStep c g s op).2 :: sophosRun c g (sophosStep c g s op).1 ops

end sophos

/-! ## Diana -/

/-- The calls of `eval_callback` in `DianaServer::search` without deletion (diana_server.hpp
L110-144, L172-180). -/
def dianaLoop (c : Diana.Crypto Kw V) (edb : Diana.Edb V) (bad : Nat → Bool) :
    List (Nat × Diana.Leaf) → List V
  | [] => []
  | (p, leaf) :: rest =>
    match get (!bad p) edb (c.token leaf) with
    | some v => c.xor v (c.mask leaf) :: dianaLoop c edb bad rest
    | none => dianaLoop c edb bad rest

/-- `DianaServer::search` without deletion (diana_server.hpp L146-183).  An exception of the
constrained PRF is an error. -/
def dianaSearch (c : Diana.Crypto Kw V) (edb : Diana.Edb V) (bad : Nat → Bool)
    (req : Diana.SearchReq c) : Out V :=
  if req.addCount = 0 then .results []
  else match Diana.evalRange c req.rcprf 0 (c.maxLeaf req.rcprf) with
    | none => .error
    | some leaves => .results (dianaLoop c edb bad leaves)

/-- One operation on a Diana client and server (diana_client.hpp L132-207, diana_server.hpp
L146-183, L315-323). -/
def dianaStep (c : Diana.Crypto Kw V) (s : Diana.Sys Kw V) :
    Op Kw V → Diana.Sys Kw V × Out V
  | .insert w i getOk putRes srvPut =>
    let (success, v, m) := getAndIncrement getOk putRes s.counters w
    if success then
      let r := Diana.requestFor c w i v
      ({ counters := m, edb := put srvPut s.edb r.token r.index }, .acked)
    else ({ s with counters := m }, .error)
  | .search w getOk bad =>
    (s, dianaSearch c s.edb bad (Diana.searchRequest c (seen getOk s.counters) w))

/-- A history of operations: what the user observes. -/
def dianaRun (c : Diana.Crypto Kw V) :
    Diana.Sys Kw V → List (Op Kw V) → List (Out V)
  | _, [] => []
  | s, op :: ops => (dianaStep c s op).2 :: dianaRun c (dianaStep c s op).1 ops

end Verif.Faults
