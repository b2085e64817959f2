import Verif.Runner.Message
import Verif.Runner.SearchRpc

/-!
# Clients and services with restarts

End-to-end model of a client and a service connected by gRPC, for Sophos and Diana: key files and databases on disk,
keys in memory, messages. The processes can be stopped or killed, between two operations or in the middle of an
insertion, and started again at any time, messages can be lost, and a client keeps working (and logs errors) when the
service is down. (A process killed in a search is as one killed after it, except that the client does not see the
result: a search does not change anything.)

Sources: `/repo/lib/sophos/sophos_client_runner.cpp` L115-229, L269-324, `/repo/lib/sophos/sophos_server_runner.cpp`
L43-74, L151-269, `/repo/lib/diana/client_runner.cpp` L55-147, L211-247, L287-348, `/repo/lib/diana/server_runner.cpp`
L46-94, L192-313.

The client and the service have been set up (C43). Assumption on RocksDB: an operation that has returned is still
there when the database is opened again. (Writes use the default options: the write-ahead log is written but not
synchronised, which is enough for a process that is killed, not for a machine that stops.)
-/

namespace Verif.Runner

/-- Users' actions and restarts -/
inductive Event (Kw : Type) where
  | insert (w : Kw) (i : Index)
  /-- an insertion that is interrupted after the counter was stored (before, it is as if the client had stopped): the
  service gets the message and stores it or not; then the client, the service or both are killed, or the message or
  the reply is lost. -/
  | cut (w : Kw) (i : Index) (stored clientKilled serverKilled : Bool)
  | search (w : Kw)
  | startClient
  | stopClient
  | startServer
  | stopServer
  deriving DecidableEq

/-- Size check and `std::copy` into an array of 32 bytes (sophos_client_runner.cpp L156-181;
diana/client_runner.cpp L103-135; diana/server_runner.cpp L69-82): `none` is an exception. -/
def readKey32 (s : List UInt8) : Option (Vector UInt8 32) :=
  if h : s.length = 32 then some ⟨s.toArray, by simpa using h⟩ else none

variable {Kw : Type} [DecidableEq Kw]

/-! ## Sophos -/

/-- The external cryptography of Sophos as functions of the keys, with tokens of `t` bytes (`kSearchTokenSize`) -/
structure SophosLib (Kw : Type) (t : Nat) where
  hash : Kw → Vector UInt8 16
  /-- `TdpInverse(sk).generate_array(Prf(prg), seed)` -/
  gen : List UInt8 → Vector UInt8 32 → Vector UInt8 16 → Vector UInt8 t
  /-- `Prf(master).prf(seed)` -/
  dkey : Vector UInt8 32 → Vector UInt8 16 → Vector UInt8 32
  /-- `TdpInverse(sk).invert` -/
  inv : List UInt8 → Vector UInt8 t → Vector UInt8 t
  /-- `TdpMultPool(pk).eval` -/
  eval : List UInt8 → Vector UInt8 t → Vector UInt8 t
  prf : Vector UInt8 32 → Vector UInt8 t → Bool → Vector UInt8 16
  /-- strings accepted by the constructor of `TdpInverse` -/
  privateValid : List UInt8 → Bool
  /-- strings accepted by the constructor of `TdpMultPool` -/
  publicValid : List UInt8 → Bool
  /-- `TdpInverse(sk).public_key()` -/
  publicKey : List UInt8 → List UInt8
  public_valid : ∀ sk, privateValid sk = true → publicValid (publicKey sk) = true
  eval_inv : ∀ sk x, privateValid sk = true → eval (publicKey sk) (inv sk x) = x

namespace SophosLib

/-- The cryptography used by a client with these keys and the service it has set up -/
def crypto {t : Nat} (lib : SophosLib Kw t) (sk : List UInt8) (hsk : lib.privateValid sk = true)
    (master prg : Vector UInt8 32) : Sophos.Crypto Kw (Vector UInt8 16) (Vector UInt8 t) (Vector UInt8 32) where
  hash := lib.hash
  gen := lib.gen sk prg
  dkey := lib.dkey master
  eval := lib.eval (lib.publicKey sk)
  inv := lib.inv sk
  prf := lib.prf
  eval_inv := fun x => lib.eval_inv sk x hsk

end SophosLib

/-- Keys of a running client; the private key was accepted. -/
structure SophosKeys {t : Nat} (lib : SophosLib Kw t) where
  sk : List UInt8
  valid : lib.privateValid sk = true
  master : Vector UInt8 32
  prg : Vector UInt8 32

/-- The cryptography of a running client -/
def SophosKeys.crypto {t : Nat} {lib : SophosLib Kw t} (k : SophosKeys lib) :
    Sophos.Crypto Kw (Vector UInt8 16) (Vector UInt8 t) (Vector UInt8 32) := lib.crypto k.sk k.valid k.master k.prg

/-- The two directories and the two processes -/
structure SophosWorld {t : Nat} (lib : SophosLib Kw t) where
  /-- `tdp_sk.key`, `derivation_master.key`, `rsa_prg.key`, `counters.dat` -/
  skFile : List UInt8
  masterFile : List UInt8
  prgFile : List UInt8
  counters : Map Kw UInt32
  /-- `tdp_pk.key`, `pairs.dat` -/
  pkFile : List UInt8
  edb : Map (Vector UInt8 16) Index
  client : Option (SophosKeys lib)
  /-- the public key of the running service -/
  server : Option (List UInt8)

/-- `construct_client_from_directory` (sophos_client_runner.cpp L115-192), all files being present -/
def sophosOpenClient {t : Nat} (lib : SophosLib Kw t) (skFile masterFile prgFile : List UInt8) :
    Option (SophosKeys lib) :=
  match readKey32 masterFile, readKey32 prgFile with
  | some master, some prg =>
    if h : lib.privateValid skFile = true then some ⟨skFile, h, master, prg⟩ else none
  | _, _ => none

/-- `SophosImpl::SophosImpl` (sophos_server_runner.cpp L43-74), all files being present -/
def sophosOpenServer {t : Nat} (lib : SophosLib Kw t) (pkFile : List UInt8) : Option (List UInt8) :=
  if lib.publicValid pkFile then some pkFile else none

/-- How the service is compiled and run -/
structure Config where
  /-- `hardware_concurrency()` -/
  hw : Nat
  /-- `async_search_` -/
  async : Bool
  /-- assertions are checked -/
  debug : Bool

/-- The service with public key `pk` replies `res` to a search message: conversion, then search. Only `eval` and `prf`
of the cryptography are used by the service. -/
def SophosServe {t : Nat} (lib : SophosLib Kw t) (cfg : Config) (pk : List UInt8)
    (edb : Map (Vector UInt8 16) Index) (mes : SearchMessage) (res : List Index) : Prop :=
  ∃ token key n, searchHandler t cfg.debug mes = .ok (token, key, n) ∧
    ∃ c : Sophos.Crypto Kw (Vector UInt8 16) (Vector UInt8 t) (Vector UInt8 32),
      c.eval = lib.eval pk ∧ c.prf = lib.prf ∧
      -- the token is not used if no result is expected
      ∃ tok, (∀ x, token = some x → tok = x) ∧ SophosReplies c cfg.hw cfg.async edb ⟨tok, key, n⟩ res

/-- One event; the outcome of a search is its result, `none` if the client or the service is not running. `garbage` are
the contents of the fields which `search_request` does not write. -/
inductive SophosStep {t : Nat} (lib : SophosLib Kw t) (cfg : Config) (garbage : Vector UInt8 t × Vector UInt8 32) :
    SophosWorld lib → Event Kw → Option (List Index) → SophosWorld lib → Prop
  /-- `SophosClientRunner::insert` (L303-324) and `SophosImpl::insert` (L249-269) -/
  | insert (s : SophosWorld lib) (w : Kw) (i : Index) (k : SophosKeys lib) (pk : List UInt8)
      (edb' : Map (Vector UInt8 16) Index) (hc : s.client = some k) (hs : s.server = some pk)
      (h : insertHandler s.edb (ofUpdate (Sophos.insertionRequest k.crypto s.counters w i).1.token
        (Sophos.insertionRequest k.crypto s.counters w i).1.index) = .ok edb') :
      SophosStep lib cfg garbage s (.insert w i) none
        { s with counters := (Sophos.insertionRequest k.crypto s.counters w i).2, edb := edb' }
  /-- the update is lost: the RPC fails, an error is logged -/
  | insertDown (s : SophosWorld lib) (w : Kw) (i : Index) (k : SophosKeys lib)
      (hc : s.client = some k) (hs : s.server = none) :
      SophosStep lib cfg garbage s (.insert w i) none
        { s with counters := (Sophos.insertionRequest k.crypto s.counters w i).2 }
  | insertStopped (s : SophosWorld lib) (w : Kw) (i : Index) (hc : s.client = none) :
      SophosStep lib cfg garbage s (.insert w i) none s
  /-- an interrupted insertion, after the service stored the update -/
  | cutStored (s : SophosWorld lib) (w : Kw) (i : Index) (ck sk : Bool) (k : SophosKeys lib) (pk : List UInt8)
      (edb' : Map (Vector UInt8 16) Index) (hc : s.client = some k) (hs : s.server = some pk)
      (h : insertHandler s.edb (ofUpdate (Sophos.insertionRequest k.crypto s.counters w i).1.token
        (Sophos.insertionRequest k.crypto s.counters w i).1.index) = .ok edb') :
      SophosStep lib cfg garbage s (.cut w i true ck sk) none
        { s with
          counters := (Sophos.insertionRequest k.crypto s.counters w i).2
          edb := edb'
          client := if ck then none else s.client
          server := if sk then none else s.server }
  /-- an interrupted insertion which the service has not stored -/
  | cutLost (s : SophosWorld lib) (w : Kw) (i : Index) (stored ck sk : Bool) (k : SophosKeys lib)
      (hc : s.client = some k) (hs : stored = false ∨ s.server = none) :
      SophosStep lib cfg garbage s (.cut w i stored ck sk) none
        { s with
          counters := (Sophos.insertionRequest k.crypto s.counters w i).2
          client := if ck then none else s.client
          server := if sk then none else s.server }
  | cutStopped (s : SophosWorld lib) (w : Kw) (i : Index) (stored ck sk : Bool) (hc : s.client = none) :
      SophosStep lib cfg garbage s (.cut w i stored ck sk) none s
  /-- `SophosClientRunner::search` (L269-301) -/
  | search (s : SophosWorld lib) (w : Kw) (k : SophosKeys lib) (pk : List UInt8) (res : List Index)
      (hc : s.client = some k) (hs : s.server = some pk)
      (h : SophosServe lib cfg pk s.edb (ofSearch (Sophos.searchRequest k.crypto garbage s.counters w).token
        (Sophos.searchRequest k.crypto garbage s.counters w).derivationKey
        (Sophos.searchRequest k.crypto garbage s.counters w).addCount) res) :
      SophosStep lib cfg garbage s (.search w) (some res) s
  | searchDown (s : SophosWorld lib) (w : Kw) (h : s.client = none ∨ s.server = none) :
      SophosStep lib cfg garbage s (.search w) none s
  | startClient (s : SophosWorld lib) (h : s.client = none) :
      SophosStep lib cfg garbage s .startClient none
        { s with client := sophosOpenClient lib s.skFile s.masterFile s.prgFile }
  | startClientAgain (s : SophosWorld lib) (h : s.client ≠ none) :
      SophosStep lib cfg garbage s .startClient none s
  | stopClient (s : SophosWorld lib) : SophosStep lib cfg garbage s .stopClient none { s with client := none }
  | startServer (s : SophosWorld lib) (h : s.server = none) :
      SophosStep lib cfg garbage s .startServer none { s with server := sophosOpenServer lib s.pkFile }
  | startServerAgain (s : SophosWorld lib) (h : s.server ≠ none) :
      SophosStep lib cfg garbage s .startServer none s
  | stopServer (s : SophosWorld lib) : SophosStep lib cfg garbage s .stopServer none { s with server := none }

/-- A sequence of events and its outcomes -/
inductive SophosRun {t : Nat} (lib : SophosLib Kw t) (cfg : Config) (garbage : Vector UInt8 t × Vector UInt8 32) :
    SophosWorld lib → List (Event Kw) → List (Option (List Index)) → SophosWorld lib → Prop
  | nil (s : SophosWorld lib) : SophosRun lib cfg garbage s [] [] s
  | cons {s s' s'' : SophosWorld lib} {e : Event Kw} {es : List (Event Kw)} {o : Option (List Index)}
      {os : List (Option (List Index))} (h : SophosStep lib cfg garbage s e o s')
      (hs : SophosRun lib cfg garbage s' es os s'') : SophosRun lib cfg garbage s (e :: es) (o :: os) s''

/-- After the creation of the client and the set-up of the service (sophos_client_runner.cpp L57-113;
sophos_server_runner.cpp L76-149): both are running. -/
def SophosWorld.created {t : Nat} {lib : SophosLib Kw t} (k : SophosKeys lib) : SophosWorld lib where
  skFile := k.sk
  masterFile := k.master.toList
  prgFile := k.prg.toList
  counters := Map.empty
  pkFile := lib.publicKey k.sk
  edb := Map.empty
  client := some k
  server := some (lib.publicKey k.sk)

/-! ## Diana -/

/-- The external cryptography of Diana as functions of the keys; `Nonce` is the randomness of `Wrapper::wrap`. -/
structure DianaLib (Kw : Type) where
  RK : Type
  CK : Type
  Nonce : Type
  hash : Kw → Vector UInt8 16
  kwToken : Vector UInt8 32 → Vector UInt8 16 → Vector UInt8 32
  root : Vector UInt8 32 → Vector UInt8 16 → RK
  eval : RK → Nat → Diana.Leaf
  constrain : RK → Nat → Nat → CK
  ceval : CK → Nat → Option Diana.Leaf
  maxLeaf : CK → Nat
  emptyCK : CK
  token : Diana.Leaf → Vector UInt8 16
  mask : Diana.Leaf → Index
  maxLeaf_constrain : ∀ r b, b < 2 ^ 32 → maxLeaf (constrain r 0 b) = b
  ceval_constrain : ∀ r b x, b < 2 ^ 32 → x ≤ b → ceval (constrain r 0 b) x = some (eval r x)
  /-- `Wrapper(key).wrap` and `unwrap` -/
  wrap : Vector UInt8 32 → Nonce → CK → List UInt8
  unwrap : Vector UInt8 32 → List UInt8 → Option CK
  unwrap_wrap : ∀ k n ck, unwrap k (wrap k n ck) = some ck
  nonce : Nonce

/-- The cryptography of a client with these keys; masks are applied with an exclusive or. -/
def DianaLib.crypto (lib : DianaLib Kw) (master kwMaster : Vector UInt8 32) : Diana.Crypto Kw Index where
  RK := lib.RK
  CK := lib.CK
  hash := lib.hash
  kwToken := lib.kwToken kwMaster
  root := lib.root master
  eval := lib.eval
  constrain := lib.constrain
  ceval := lib.ceval
  maxLeaf := lib.maxLeaf
  emptyCK := lib.emptyCK
  token := lib.token
  mask := lib.mask
  xor := fun a b => a ^^^ b
  xor_xor := fun x m => by rw [BitVec.xor_assoc, BitVec.xor_self, BitVec.xor_zero]
  maxLeaf_constrain := lib.maxLeaf_constrain
  ceval_constrain := lib.ceval_constrain

/-- The cryptography of the service, which uses only `ceval`, `maxLeaf`, `token`, `mask` and `xor` -/
def DianaLib.server (lib : DianaLib Kw) : Diana.Crypto Kw Index :=
  lib.crypto (Vector.replicate 32 0) (Vector.replicate 32 0)

/-- Keys of a running client -/
structure DianaKeys where
  master : Vector UInt8 32
  kwMaster : Vector UInt8 32
  wrapping : Vector UInt8 32
  deriving DecidableEq

/-- The two directories and the two processes -/
structure DianaWorld (Kw : Type) where
  /-- `master_derivation.key`, `kw_token_master.key`, `wrapping.key`, `counters.dat` -/
  masterFile : List UInt8
  kwMasterFile : List UInt8
  wrappingFile : List UInt8
  counters : Map Kw UInt32
  /-- `wrapping.key`, `pairs.dat` -/
  serverFile : List UInt8
  edb : Map (Vector UInt8 16) Index
  client : Option DianaKeys
  /-- the wrapping key of the running service -/
  server : Option (Vector UInt8 32)

/-- `construct_client_from_directory` (diana/client_runner.cpp L55-147), all files being present -/
def dianaOpenClient (masterFile kwMasterFile wrappingFile : List UInt8) : Option DianaKeys :=
  match readKey32 masterFile, readKey32 kwMasterFile, readKey32 wrappingFile with
  | some m, some k, some w => some ⟨m, k, w⟩
  | _, _, _ => none

/-- The service with wrapping key `key` replies `res` to a search message. `kwToken` is copied, but not used by the
search (it is used by Janus only). -/
def DianaServe (lib : DianaLib Kw) (cfg : Config) (key : Vector UInt8 32) (edb : Map (Vector UInt8 16) Index)
    (mes : DianaSearchMessage) (res : List Index) : Prop :=
  ∃ r, toDianaSearch (lib.unwrap key) mes = .ok r ∧
    ∃ kt : Vector UInt8 32, DianaReplies lib.server cfg.hw cfg.async edb ⟨kt, r.rcprf, r.addCount⟩ res

/-- One event -/
inductive DianaStep (lib : DianaLib Kw) (cfg : Config) :
    DianaWorld Kw → Event Kw → Option (List Index) → DianaWorld Kw → Prop
  /-- `DianaClientRunner::insert` (L326-348) and `DianaImpl::insert` (L296-313) -/
  | insert (s : DianaWorld Kw) (w : Kw) (i : Index) (k : DianaKeys) (key : Vector UInt8 32)
      (edb' : Map (Vector UInt8 16) Index) (hc : s.client = some k) (hs : s.server = some key)
      (h : insertHandler s.edb (ofUpdate
        (Diana.insertionRequest (lib.crypto k.master k.kwMaster) s.counters w i).1.token
        (Diana.insertionRequest (lib.crypto k.master k.kwMaster) s.counters w i).1.index) = .ok edb') :
      DianaStep lib cfg s (.insert w i) none
        { s with
          counters := (Diana.insertionRequest (lib.crypto k.master k.kwMaster) s.counters w i).2
          edb := edb' }
  | insertDown (s : DianaWorld Kw) (w : Kw) (i : Index) (k : DianaKeys)
      (hc : s.client = some k) (hs : s.server = none) :
      DianaStep lib cfg s (.insert w i) none
        { s with counters := (Diana.insertionRequest (lib.crypto k.master k.kwMaster) s.counters w i).2 }
  | insertStopped (s : DianaWorld Kw) (w : Kw) (i : Index) (hc : s.client = none) :
      DianaStep lib cfg s (.insert w i) none s
  /-- an interrupted insertion, after the service stored the update -/
  | cutStored (s : DianaWorld Kw) (w : Kw) (i : Index) (ck sk : Bool) (k : DianaKeys) (key : Vector UInt8 32)
      (edb' : Map (Vector UInt8 16) Index) (hc : s.client = some k) (hs : s.server = some key)
      (h : insertHandler s.edb (ofUpdate
        (Diana.insertionRequest (lib.crypto k.master k.kwMaster) s.counters w i).1.token
        (Diana.insertionRequest (lib.crypto k.master k.kwMaster) s.counters w i).1.index) = .ok edb') :
      DianaStep lib cfg s (.cut w i true ck sk) none
        { s with
          counters := (Diana.insertionRequest (lib.crypto k.master k.kwMaster) s.counters w i).2
          edb := edb'
          client := if ck then none else s.client
          server := if sk then none else s.server }
  /-- an interrupted insertion which the service has not stored -/
  | cutLost (s : DianaWorld Kw) (w : Kw) (i : Index) (stored ck sk : Bool) (k : DianaKeys)
      (hc : s.client = some k) (hs : stored = false ∨ s.server = none) :
      DianaStep lib cfg s (.cut w i stored ck sk) none
        { s with
          counters := (Diana.insertionRequest (lib.crypto k.master k.kwMaster) s.counters w i).2
          client := if ck then none else s.client
          server := if sk then none else s.server }
  | cutStopped (s : DianaWorld Kw) (w : Kw) (i : Index) (stored ck sk : Bool) (hc : s.client = none) :
      DianaStep lib cfg s (.cut w i stored ck sk) none s
  /-- `DianaClientRunner::search` (L287-324); no RPC if no result is expected -/
  | searchEmpty (s : DianaWorld Kw) (w : Kw) (k : DianaKeys) (hc : s.client = some k)
      (h : (Diana.searchRequest (lib.crypto k.master k.kwMaster) s.counters w).addCount = 0) :
      DianaStep lib cfg s (.search w) (some []) s
  | search (s : DianaWorld Kw) (w : Kw) (k : DianaKeys) (key : Vector UInt8 32) (nonce : lib.Nonce)
      (res : List Index) (hc : s.client = some k) (hs : s.server = some key)
      (hn : (Diana.searchRequest (lib.crypto k.master k.kwMaster) s.counters w).addCount ≠ 0)
      (h : DianaServe lib cfg key s.edb (ofDianaSearch (lib.wrap k.wrapping nonce)
        (Diana.searchRequest (lib.crypto k.master k.kwMaster) s.counters w).kwToken
        (Diana.searchRequest (lib.crypto k.master k.kwMaster) s.counters w).rcprf
        (Diana.searchRequest (lib.crypto k.master k.kwMaster) s.counters w).addCount) res) :
      DianaStep lib cfg s (.search w) (some res) s
  | searchDown (s : DianaWorld Kw) (w : Kw) (k : DianaKeys) (hc : s.client = some k) (hs : s.server = none)
      (hn : (Diana.searchRequest (lib.crypto k.master k.kwMaster) s.counters w).addCount ≠ 0) :
      DianaStep lib cfg s (.search w) none s
  | searchStopped (s : DianaWorld Kw) (w : Kw) (hc : s.client = none) : DianaStep lib cfg s (.search w) none s
  | startClient (s : DianaWorld Kw) (h : s.client = none) :
      DianaStep lib cfg s .startClient none
        { s with client := dianaOpenClient s.masterFile s.kwMasterFile s.wrappingFile }
  | startClientAgain (s : DianaWorld Kw) (h : s.client ≠ none) : DianaStep lib cfg s .startClient none s
  | stopClient (s : DianaWorld Kw) : DianaStep lib cfg s .stopClient none { s with client := none }
  | startServer (s : DianaWorld Kw) (h : s.server = none) :
      DianaStep lib cfg s .startServer none { s with server := readKey32 s.serverFile }
  | startServerAgain (s : DianaWorld Kw) (h : s.server ≠ none) : DianaStep lib cfg s .startServer none s
  | stopServer (s : DianaWorld Kw) : DianaStep lib cfg s .stopServer none { s with server := none }

/-- A sequence of events and its outcomes -/
inductive DianaRun (lib : DianaLib Kw) (cfg : Config) :
    DianaWorld Kw → List (Event Kw) → List (Option (List Index)) → DianaWorld Kw → Prop
  | nil (s : DianaWorld Kw) : DianaRun lib cfg s [] [] s
  | cons {s s' s'' : DianaWorld Kw} {e : Event Kw} {es : List (Event Kw)} {o : Option (List Index)}
      {os : List (Option (List Index))} (h : DianaStep lib cfg s e o s')
      (hs : DianaRun lib cfg s' es os s'') : DianaRun lib cfg s (e :: es) (o :: os) s''

/-- After the creation of the client and the set-up of the service: both are running. -/
def DianaWorld.created (k : DianaKeys) : DianaWorld Kw where
  masterFile := k.master.toList
  kwMasterFile := k.kwMaster.toList
  wrappingFile := k.wrapping.toList
  counters := Map.empty
  serverFile := k.wrapping.toList
  edb := Map.empty
  client := some k
  server := some k.wrapping

end Verif.Runner
