import Verif.Common.Map
import Verif.Common.XorMask
import Verif.Counter.Model
import Mathlib.Logic.Function.Iterate

/-!
# Model of the Sophos scheme (client and server)

`/repo/lib/sophos/sophos_client.cpp`, `/repo/lib/sophos/sophos_common.cpp`,
`/repo/lib/sophos/sophos_server.cpp`, and the counter store
`/repo/lib/utils/rocksdb_wrapper.cpp` L85-190.
-/

namespace Verif.Sophos

open Verif

/-- `update_token_type` and the mask are both 16-byte arrays
(`/repo/lib/include/sse/schemes/sophos/sophos_common.hpp`, `kUpdateTokenSize = 16`). -/
abbrev Token := Vector UInt8 16

/-- The external cryptography used by Sophos.  Keywords `Kw`, keyword seeds `Seed`, search tokens
`ST` (elements of the RSA domain) and derivation keys `DK` are abstract. -/
structure Crypto (Kw Seed ST DK : Type) where
  /-- `get_keyword_index`: `crypto::Hash::hash(kw)` cut to 16 bytes (sophos_client.cpp L77-81). -/
  hash : Kw → Seed
  /-- `inverse_tdp_.generate_array(rsa_prg_, seed)` (sophos_client.cpp L100, L136). -/
  gen : Seed → ST
  /-- `derivation_prf().prf(seed)` (sophos_client.cpp L104-105, L148-149). -/
  dkey : Seed → DK
  /-- public evaluation of the trapdoor permutation, `public_tdp_.eval` (one step). -/
  eval : ST → ST
  /-- one step of `inverse_tdp_.invert_mult`. -/
  inv : ST → ST
  /-- `derivation_prf.prf(st + '0')` (`false`) and `prf(st + '1')` (`true`)
  (sophos_common.cpp L18-31). -/
  prf : DK → ST → Bool → Token
  /-- the trapdoor permutation law. -/
  eval_inv : ∀ x, eval (inv x) = x

/-! ## Messages -/

/-- `SearchRequest` (sophos_common.hpp): token, derivation key, add_count. -/
structure SearchReq (ST DK : Type) where
  token : ST
  derivationKey : DK
  addCount : UInt32

/-- `UpdateRequest` (sophos_common.hpp): update token and masked index. -/
structure UpdateReq where
  token : Token
  index : Index
deriving DecidableEq

/-! ## Client -/

variable {Kw Seed ST DK : Type} [DecidableEq Kw]

/-- `gen_update_token_masks` (sophos_common.cpp L18-31): token and mask. -/
def genUpdateTokenMasks (c : Crypto Kw Seed ST DK) (k : DK) (st : ST) : Token × Token :=
  (c.prf k st false, c.prf k st true)

/-- `xor_mask` at the mask size used by Sophos. -/
def mask (x : Index) (m : Token) : Index := xorMask (by decide) x m

/-- The part of `SophosClient::insertion_request` after the counter has been obtained
(sophos_client.cpp L136-168). -/
def requestFor (c : Crypto Kw Seed ST DK) (w : Kw) (i : Index) (kwCounter : UInt32) : UpdateReq :=
  let seed := c.hash w
  let st0 := c.gen seed
  let st := if kwCounter = 0 then st0 else c.inv^[kwCounter.toNat] st0
  let k := c.dkey seed
  let (tok, msk) := genUpdateTokenMasks c k st
  { token := tok, index := mask i msk }

/-- `SophosClient::insertion_request` (sophos_client.cpp L115-169).  The store is the persistent
`counter_map_`.  Simplification: the counter store does not fail (`success` is true). -/
def insertionRequest (c : Crypto Kw Seed ST DK) (counters : Map Kw UInt32) (w : Kw) (i : Index) :
    UpdateReq × Map Kw UInt32 :=
  let (kwCounter, counters') := Counter.getAndIncrement counters w
  (requestFor c w i kwCounter, counters')

/-- `SophosClient::search_request` (sophos_client.cpp L83-112).  When the keyword is unknown only
`add_count` is set; `garbage` stands for the indeterminate contents of the other two fields. -/
def searchRequest (c : Crypto Kw Seed ST DK) (garbage : ST × DK) (counters : Map Kw UInt32)
    (w : Kw) : SearchReq ST DK :=
  match Counter.get counters w with
  | none => { token := garbage.1, derivationKey := garbage.2, addCount := 0 }
  | some kwCounter =>
    let seed := c.hash w
    { token := c.inv^[kwCounter.toNat] (c.gen seed)
      derivationKey := c.dkey seed
      addCount := kwCounter + 1 }

/-! ## Server -/

/-- The encrypted database `edb_`. -/
abbrev Edb := Map Token Index

/-- `SophosServer::insert` (sophos_server.cpp L484-491). -/
def serverInsert (edb : Edb) (r : UpdateReq) : Edb := edb.put r.token r.index

/-- One lookup of the server for the search token `st`: derive token and mask, look the token up,
unmask the value if found (body of the loop of `search`, sophos_server.cpp L61-83). -/
def access (c : Crypto Kw Seed ST DK) (edb : Edb) (k : DK) (st : ST) : Option Index :=
  let (tok, msk) := genUpdateTokenMasks c k st
  match edb tok with
  | some v => some (mask v msk)
  | none => none

/-- The loop of `SophosServer::search` (sophos_server.cpp L60-86) with `n` iterations left,
current token `st` and accumulated `results`. -/
def searchLoop (c : Crypto Kw Seed ST DK) (edb : Edb) (k : DK) :
    Nat → ST → List Index → List Index
  | 0, _, results => results
  | n + 1, st, results =>
    let results' := match access c edb k st with
      | some v => results ++ [v]
      | none => results
    searchLoop c edb k n (c.eval st) results'

/-- `SophosServer::search` (sophos_server.cpp L46-89). -/
def search (c : Crypto Kw Seed ST DK) (edb : Edb) (r : SearchReq ST DK) : List Index :=
  searchLoop c edb r.derivationKey r.addCount.toNat r.token []

/-- Trace of callback invocations of `SophosServer::search_callback`
(sophos_server.cpp L91-127): same loop, `post_callback(v)` instead of `emplace_back`. -/
def searchCallbackLoop (c : Crypto Kw Seed ST DK) (edb : Edb) (k : DK) : Nat → ST → List Index
  | 0, _ => []
  | n + 1, st =>
    match access c edb k st with
    | some v => v :: searchCallbackLoop c edb k n (c.eval st)
    | none => searchCallbackLoop c edb k n (c.eval st)

/-- `SophosServer::search_callback` (sophos_server.cpp L91-127). -/
def searchCallback (c : Crypto Kw Seed ST DK) (edb : Edb) (r : SearchReq ST DK) : List Index :=
  searchCallbackLoop c edb r.derivationKey r.addCount.toNat r.token

/-! ## Whole systems -/

/-- The client processes a list of insertions one after the other (a fresh client starts with
`Map.empty`); the update requests are returned in order. -/
def clientRun (c : Crypto Kw Seed ST DK) :
    Map Kw UInt32 → List (Kw × Index) → List UpdateReq × Map Kw UInt32
  | m, [] => ([], m)
  | m, (w, i) :: rest =>
    let (r, m') := insertionRequest c m w i
    let (rs, m'') := clientRun c m' rest
    (r :: rs, m'')

/-- The server receives a list of update requests. -/
def serverRun (edb : Edb) (rs : List UpdateReq) : Edb := rs.foldl serverInsert edb

/-- The server state when the requests of a client that performed the insertions `H` reach the
server in the order `D` (positions in `H`; a position may be missing — lost update — or occur
several times — duplicated update). -/
def deliver (c : Crypto Kw Seed ST DK) (H : List (Kw × Index)) (D : List Nat) : Edb :=
  serverRun Map.empty (D.filterMap (fun k => (clientRun c Map.empty H).1[k]?))

/-- An operation of a user of the scheme. -/
inductive Op (Kw : Type) where
  | insert (w : Kw) (i : Index)
  | search (w : Kw)

/-- State of client and server. -/
structure Sys (Kw : Type) where
  counters : Map Kw UInt32
  edb : Edb

/-- Execution of one operation, every update being delivered at once; the output is the search
result if the operation is a search. -/
def step (c : Crypto Kw Seed ST DK) (garbage : ST × DK) (s : Sys Kw) :
    Op Kw → Sys Kw × Option (List Index)
  | .insert w i =>
    let (r, m) := insertionRequest c s.counters w i
    ({ counters := m, edb := serverInsert s.edb r }, none)
  | .search w => (s, some (search c s.edb (searchRequest c garbage s.counters w)))

/-- Execution of a history. -/
def run (c : Crypto Kw Seed ST DK) (garbage : ST × DK) :
    Sys Kw → List (Op Kw) → Sys Kw × List (List Index)
  | s, [] => (s, [])
  | s, op :: ops =>
    let (s', out) := step c garbage s op
    let (s'', outs) := run c garbage s' ops
    (s'', out.toList ++ outs)

/-- Fresh system. -/
def Sys.init : Sys Kw := { counters := Map.empty, edb := Map.empty }

end Verif.Sophos
