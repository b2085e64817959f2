/-!
# Set-up of the gRPC services

Model of the constructors and of `setup` of the two services (`/repo/lib/sophos/sophos_server_runner.cpp`
L43-149, `/repo/lib/diana/server_runner.cpp` L46-190), and of the constructors of the two clients
(`/repo/lib/sophos/sophos_client_runner.cpp` L57-258, `/repo/lib/diana/client_runner.cpp` L55-276), as
sequences of operations on the file system that may fail, and after each of which the process may be killed.

The contents of the databases are not part of this model, see C44. `valid` tells the accepted keys: for Sophos
the public keys from which `TdpMultPool` can be constructed, for Diana the keys of 32 bytes. Completed
operations survive a crash (no reordering by the file system).
-/

namespace Verif.Runner

abbrev Bytes := List UInt8

/-- What is found at `storage_path_` -/
inductive Disk where
  | absent
  /-- not a directory -/
  | other
  /-- a directory, with or without `pairs.dat`, and the contents of the key file if it exists -/
  | dir (pairs : Bool) (key : Option Bytes)
  deriving DecidableEq, Repr

/-- Members of the running service: `server_` is not null; the public key it was made from (Sophos) or the key
of `token_wrapper_` (Diana), if it exists -/
structure Proc where
  core : Bool
  key : Option Bytes
  deriving DecidableEq, Repr

/-- A service, running or not -/
structure Service where
  disk : Disk
  proc : Option Proc
  deriving DecidableEq, Repr

/-- gRPC status codes -/
inductive Status where
  | ok | failedPrecondition | alreadyExists | permissionDenied | invalidArgument
  deriving DecidableEq, Repr

/-- What a request results in -/
inductive Reply where
  | status (s : Status)
  /-- a null pointer is dereferenced -/
  | nullPointer
  /-- the process is not running, or is killed before it answers -/
  | unavailable
  deriving DecidableEq, Repr

/-- The two services -/
inductive Scheme where
  | sophos | diana
  deriving DecidableEq, Repr

/-- Which operations fail during `setup` -/
structure Plan where
  /-- `create_directory` fails -/
  mkdirFails : Bool
  /-- opening the database throws; the directory `pairs.dat` may be left behind -/
  openFails : Option Bool
  /-- the key file cannot be opened -/
  keyOpenFails : Bool
  /-- number of bytes of the key that reach the file (errors of the output stream are not checked) -/
  written : Nat

/-- Nothing fails for a key of `n` bytes. -/
def Plan.good (n : Nat) : Plan where
  mkdirFails := false
  openFails := none
  keyOpenFails := false
  written := n

/-- The constructor (sophos L43-74; diana L46-94): `none` is an exception. `openFails`: the database cannot be
opened. -/
def construct (valid : Bytes → Bool) (openFails : Bool) : Disk → Option Proc
  | .absent => some ⟨false, none⟩
  | .other => none
  | .dir pairs key =>
    match key with
    | none => none
    | some k => if pairs && valid k && !openFails then some ⟨true, some k⟩ else none

/-- `SophosImpl::setup` (L76-149): the states after each of its operations, and its status. -/
def sophosSetup (valid : Bytes → Bool) (p : Plan) (key : Bytes) (d : Disk) (pr : Proc) :
    List (Disk × Proc) × Status :=
  if pr.core then ([], .failedPrecondition)
  else
    match d with
    | .other => ([], .alreadyExists)
    | .dir _ _ => ([], .alreadyExists)
    | .absent =>
      if p.mkdirFails then ([], .permissionDenied)
      else
        match p.openFails with
        | some left => ([(.dir false none, pr), (.dir left none, ⟨false, none⟩)], .failedPrecondition)
        | none =>
          if !valid key then
            ([(.dir false none, pr), (.dir true none, ⟨false, none⟩)], .failedPrecondition)
          else if p.keyOpenFails then
            ([(.dir false none, pr), (.dir true none, pr), (.dir true none, ⟨true, some key⟩)], .permissionDenied)
          else
            ([(.dir false none, pr), (.dir true none, pr), (.dir true none, ⟨true, some key⟩),
              (.dir true (some []), ⟨true, some key⟩),
              (.dir true (some (key.take p.written)), ⟨true, some key⟩)], .ok)

/-- `DianaImpl::setup` (L101-190). The size of the key is checked (L169) after the creation of the server
and of the key file. -/
def dianaSetup (valid : Bytes → Bool) (p : Plan) (key : Bytes) (d : Disk) (pr : Proc) :
    List (Disk × Proc) × Status :=
  if pr.core then ([], .failedPrecondition)
  else
    match d with
    | .other => ([], .alreadyExists)
    | .dir _ _ => ([], .alreadyExists)
    | .absent =>
      if p.mkdirFails then ([], .permissionDenied)
      else
        match p.openFails with
        | some left => ([(.dir false none, pr), (.dir left none, ⟨false, pr.key⟩)], .failedPrecondition)
        | none =>
          if p.keyOpenFails then
            ([(.dir false none, pr), (.dir true none, pr), (.dir true none, ⟨true, pr.key⟩)], .permissionDenied)
          else if !valid key then
            ([(.dir false none, pr), (.dir true none, pr), (.dir true none, ⟨true, pr.key⟩),
              (.dir true (some []), ⟨true, pr.key⟩)], .invalidArgument)
          else
            ([(.dir false none, pr), (.dir true none, pr), (.dir true none, ⟨true, pr.key⟩),
              (.dir true (some []), ⟨true, pr.key⟩),
              (.dir true (some (key.take p.written)), ⟨true, pr.key⟩),
              (.dir true (some (key.take p.written)), ⟨true, some key⟩)], .ok)

/-- `setup` -/
def setup : Scheme → (Bytes → Bool) → Plan → Bytes → Disk → Proc → List (Disk × Proc) × Status
  | .sophos => sophosSetup
  | .diana => dianaSetup

/-- The state after `l`, or the initial state -/
def lastState (init : Disk × Proc) (l : List (Disk × Proc)) : Disk × Proc := l.getLast?.getD init

/-- `search` (sophos L151-246; diana L192-293): checks `server_`, then uses `token_wrapper_` in
`message_to_request` (diana L213, L271) or the public key. -/
def search (pr : Proc) : Reply :=
  if !pr.core then .status .failedPrecondition
  else match pr.key with
    | some _ => .status .ok
    | none => .nullPointer

/-- `insert`, `bulk_insert` (sophos L249-294; diana L296-344): use `server_` only. -/
def insert (pr : Proc) : Reply := if !pr.core then .status .failedPrecondition else .status .ok

/-- What happens to a service -/
inductive Action where
  /-- the process is started; the database may fail to open -/
  | start (openFails : Bool)
  /-- the process is stopped or killed -/
  | kill
  /-- a `setup` message; the process is killed after some of the operations if `cut` is given -/
  | setup (key : Bytes) (p : Plan) (cut : Option Nat)
  | search
  | insert

/-- One action -/
def exec (sch : Scheme) (valid : Bytes → Bool) (s : Service) (a : Action) : Service × Reply :=
  match a, s.proc with
  | .start openFails, none => ({ s with proc := construct valid openFails s.disk }, .unavailable)
  | .start _, some _ => (s, .unavailable)
  | .kill, _ => ({ s with proc := none }, .unavailable)
  | _, none => (s, .unavailable)
  | .setup key p none, some pr =>
    let r := setup sch valid p key s.disk pr
    let st := lastState (s.disk, pr) r.1
    (⟨st.1, some st.2⟩, .status r.2)
  | .setup key p (some k), some pr =>
    let st := lastState (s.disk, pr) ((setup sch valid p key s.disk pr).1.take k)
    (⟨st.1, none⟩, .unavailable)
  | .search, some pr =>
    match search pr with
    | .nullPointer => ({ s with proc := none }, .nullPointer)
    | r => (s, r)
  | .insert, some pr => (s, insert pr)

/-- A sequence of actions -/
def execAll (sch : Scheme) (valid : Bytes → Bool) : Service → List Action → Service × List Reply
  | s, [] => (s, [])
  | s, a :: rest =>
    let r := exec sch valid s a
    let q := execAll sch valid r.1 rest
    (q.1, r.2 :: q.2)

/-- Nothing on disk, not running -/
def Service.fresh : Service := ⟨.absent, none⟩

/-! ## Clients -/

/-- The directory of a client: its three key files (sophos L51-55: `tdp_sk.key`, `derivation_master.key`,
`rsa_prg.key`; diana L45-47: `master_derivation.key`, `kw_token_master.key`, `wrapping.key`), and whether
`counters.dat` exists -/
inductive ClientDisk where
  | absent
  | other
  | dir (k0 k1 k2 : Option Bytes) (counters : Bool)
  deriving DecidableEq, Repr

/-- Keys of a new client -/
structure ClientKeys where
  k0 : Bytes
  k1 : Bytes
  k2 : Bytes
  /-- the key sent in the set-up message: the public key (sophos L245) or the wrapping key (diana L263) -/
  sent : Bytes

/-- The states after each operation of the creation of a client (sophos L213-221, L57-113; diana L228-235,
L149-208): create the directory; create and write each key file; create the database of the counters. -/
def clientInit (k : ClientKeys) : List ClientDisk :=
  [.dir none none none false,
    .dir (some []) none none false,
    .dir (some k.k0) none none false,
    .dir (some k.k0) (some []) none false,
    .dir (some k.k0) (some k.k1) none false,
    .dir (some k.k0) (some k.k1) (some []) false,
    .dir (some k.k0) (some k.k1) (some k.k2) false,
    .dir (some k.k0) (some k.k1) (some k.k2) true]

/-- `construct_client_from_directory` (sophos L115-192; diana L55-147) succeeds. `valid` tells if the three
keys are accepted. -/
def clientConstruct (valid : Bytes → Bytes → Bytes → Bool) : ClientDisk → Bool
  | .dir (some k0) (some k1) (some k2) true => valid k0 k1 k2
  | _ => false

/-- A client, running or not, and a service -/
structure Pair where
  cdisk : ClientDisk
  up : Bool
  service : Service
  deriving DecidableEq, Repr

/-- How the creation of a client ends -/
inductive Ending where
  /-- killed after some operations, or one of them throws, before the set-up message is sent -/
  | cut (k : Nat)
  /-- the message is sent but is not received -/
  | lost
  /-- the message is received; what happens in the service -/
  | received (p : Plan) (cut : Option Nat)

/-- What happens to client and service -/
inductive PairAction where
  /-- the client is started (constructors sophos L196-229; diana L211-247); the keys and the ending matter only
  if there is no directory. -/
  | startClient (k : ClientKeys) (e : Ending)
  | killClient
  /-- start or kill of the process of the service -/
  | startService (openFails : Bool)
  | killService
  /-- the client inserts or searches -/
  | clientInsert
  | clientSearch

/-- One action; the reply is that received by the client. -/
def pairExec (sch : Scheme) (valid : Bytes → Bool) (cvalid : Bytes → Bytes → Bytes → Bool) (s : Pair) :
    PairAction → Pair × Reply
  | .startClient k e =>
    if s.up then (s, .unavailable)
    else match s.cdisk with
      | .absent =>
        match e with
        | .cut n => ({ s with cdisk := ((clientInit k).take n).getLast?.getD .absent }, .unavailable)
        | .lost => ({ s with cdisk := .dir (some k.k0) (some k.k1) (some k.k2) true }, .unavailable)
        | .received p cut =>
          let r := exec sch valid s.service (.setup k.sent p cut)
          -- the constructor throws if the set-up fails (sophos L225-227; diana L243-245)
          (⟨.dir (some k.k0) (some k.k1) (some k.k2) true, decide (r.2 = .status .ok), r.1⟩, r.2)
      | d => ({ s with up := clientConstruct cvalid d }, .unavailable)
  | .killClient => ({ s with up := false }, .unavailable)
  | .startService openFails => ({ s with service := (exec sch valid s.service (.start openFails)).1 }, .unavailable)
  | .killService => ({ s with service := (exec sch valid s.service .kill).1 }, .unavailable)
  | .clientInsert =>
    if s.up then
      let r := exec sch valid s.service .insert
      ({ s with service := r.1 }, r.2)
    else (s, .unavailable)
  | .clientSearch =>
    if s.up then
      let r := exec sch valid s.service .search
      ({ s with service := r.1 }, r.2)
    else (s, .unavailable)

/-- A sequence of actions -/
def pairAll (sch : Scheme) (valid : Bytes → Bool) (cvalid : Bytes → Bytes → Bytes → Bool) :
    Pair → List PairAction → Pair × List Reply
  | s, [] => (s, [])
  | s, a :: rest =>
    let r := pairExec sch valid cvalid s a
    let q := pairAll sch valid cvalid r.1 rest
    (q.1, r.2 :: q.2)

end Verif.Runner
