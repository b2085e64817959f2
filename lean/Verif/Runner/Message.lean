import Verif.Sophos.Model
import Verif.Diana.Model

/-!
# Messages of the gRPC services

Model of the conversions between requests and messages: `request_to_message`
(`/repo/lib/sophos/sophos_client_runner.cpp` L432-452, `/repo/lib/diana/client_runner.cpp` L491-520) and
`message_to_request` (`/repo/lib/sophos/sophos_server_runner.cpp` L306-333, `/repo/lib/diana/server_runner.cpp`
L368-396), and of the handlers that call the latter. The fields of type `bytes` of a message
(`/repo/lib/protos/sophos.proto`, `/repo/lib/protos/diana.proto`) have any length.

The arrays of a request are not initialised when it is created; a byte which has not been written is `none`.
Reading such a byte, writing outside an array and reading outside a string are undefined and are faults of
the model.
-/

namespace Verif.Runner

/-- What can go wrong -/
inductive MemFault where
  /-- write after the end of an array -/
  | writeOutside
  /-- read after the end of a string -/
  | readOutside
  /-- use of bytes that have not been written -/
  | uninitialised
  /-- failed `assert` (compiled without `NDEBUG`) -/
  | assertion
  /-- an exception, which gRPC turns into an error status -/
  | exception
  deriving DecidableEq, Repr

/-- A `std::array<uint8_t, n>` -/
abbrev Buffer (n : Nat) := Vector (Option UInt8) n

/-- An array on the stack before anything is written -/
def Buffer.new (n : Nat) : Buffer n := Vector.replicate n none

/-- `std::copy(first, last, out)` where `out` points to the position `pos` of the array. -/
def copyAt {n : Nat} : List UInt8 → Nat → Buffer n → Except MemFault (Buffer n)
  | [], _, b => .ok b
  | x :: rest, pos, b =>
    if h : pos < n then copyAt rest (pos + 1) (b.set pos (some x) h) else .error .writeOutside

/-- `std::copy(s.begin(), s.end(), out.begin())` -/
def copyAll {n : Nat} (s : List UInt8) (b : Buffer n) : Except MemFault (Buffer n) := copyAt s 0 b

/-- `std::copy(s.begin(), s.begin() + count, out.begin())` -/
def copyFirst {n : Nat} (s : List UInt8) (count : Nat) (b : Buffer n) : Except MemFault (Buffer n) :=
  if count ≤ s.length then copyAt (s.take count) 0 b else .error .readOutside

/-- The bytes of an array, when they are all read. -/
def Buffer.read {n : Nat} (b : Buffer n) : Except MemFault (Vector UInt8 n) :=
  if h : ∀ i : Fin n, b[i].isSome then .ok (Vector.ofFn fun i => b[i].get (h i)) else .error .uninitialised

/-! ## Sophos -/

/-- `SearchRequestMessage` (sophos.proto) -/
structure SearchMessage where
  searchToken : List UInt8
  derivationKey : List UInt8
  addCount : UInt32
  deriving DecidableEq

/-- `UpdateRequestMessage` (sophos.proto; diana.proto) -/
structure UpdateMessage where
  updateToken : List UInt8
  index : Index
  deriving DecidableEq

/-- `SearchRequest` (sophos_common.hpp L42-47) before its use; `t` is `kSearchTokenSize`. -/
structure RawSearch (t : Nat) where
  token : Buffer t
  derivationKey : Buffer 32
  addCount : UInt32
  deriving DecidableEq

/-- `UpdateRequest` (sophos_common.hpp L50-54; diana/types.hpp L73-78) before its use -/
structure RawUpdate where
  token : Buffer 16
  index : Index
  deriving DecidableEq

/-- `message_to_request(const SearchRequestMessage*)` (sophos_server_runner.cpp L306-321); `debug` tells if
assertions are checked. -/
def toSearch (t : Nat) (debug : Bool) (mes : SearchMessage) : Except MemFault (RawSearch t) := do
  if debug ∧ mes.derivationKey.length ≠ 32 then throw .assertion
  let key ← copyFirst mes.derivationKey 32 (Buffer.new 32)
  let token ← copyAll mes.searchToken (Buffer.new t)
  return { token := token, derivationKey := key, addCount := mes.addCount }

/-- `message_to_request(const UpdateRequestMessage*)` (sophos_server_runner.cpp L323-333;
diana/server_runner.cpp L385-396) -/
def toUpdate (mes : UpdateMessage) : Except MemFault RawUpdate := do
  let token ← copyAll mes.updateToken (Buffer.new 16)
  return { token := token, index := mes.index }

/-- `request_to_message(const SearchRequest&)` (sophos_client_runner.cpp L432-441) -/
def ofSearch {t : Nat} (token : Vector UInt8 t) (key : Vector UInt8 32) (addCount : UInt32) : SearchMessage where
  searchToken := token.toList
  derivationKey := key.toList
  addCount := addCount

/-- `request_to_message(const UpdateRequest&)` (sophos_client_runner.cpp L443-451; diana/client_runner.cpp
L513-521) -/
def ofUpdate (token : Vector UInt8 16) (index : Index) : UpdateMessage where
  updateToken := token.toList
  index := index

/-- The body of `SophosImpl::insert` (sophos_server_runner.cpp L249-269) and of the loop of `bulk_insert`
(L286-288) when the server is set up; `edb_.put` reads the whole token. The same for Diana
(diana/server_runner.cpp L310, L332). -/
def insertHandler (edb : Map (Vector UInt8 16) Index) (mes : UpdateMessage) :
    Except MemFault (Map (Vector UInt8 16) Index) := do
  let r ← toUpdate mes
  let token ← r.token.read
  return edb.put token r.index

/-- `bulk_insert` (sophos_server_runner.cpp L271-294; diana/server_runner.cpp L315-344) -/
def bulkInsertHandler : Map (Vector UInt8 16) Index → List UpdateMessage → Except MemFault (Map (Vector UInt8 16) Index)
  | edb, [] => .ok edb
  | edb, mes :: rest =>
    match insertHandler edb mes with
    | .ok edb' => bulkInsertHandler edb' rest
    | .error f => .error f

/-- The request as the server uses it in `SophosImpl::search`: the derivation key is used first
(sophos_server.cpp L57-58), then the token, unless no result is expected. -/
def searchHandler (t : Nat) (debug : Bool) (mes : SearchMessage) :
    Except MemFault (Option (Vector UInt8 t) × Vector UInt8 32 × UInt32) := do
  let r ← toSearch t debug mes
  let key ← r.derivationKey.read
  if r.addCount = 0 then return (none, key, r.addCount)
  let token ← r.token.read
  return (some token, key, r.addCount)

/-! ## Diana -/

/-- `SearchRequestMessage` (diana.proto) -/
structure DianaSearchMessage where
  rcprfRep : List UInt8
  addCount : UInt32
  kwToken : List UInt8
  deriving DecidableEq

/-- `SearchRequest` (diana/types.hpp L43-71) before its use -/
structure DianaRawSearch (CK : Type) where
  kwToken : Buffer 32
  rcprf : CK
  addCount : UInt32

/-- `message_to_request(wrapper, const SearchRequestMessage*)` (diana/server_runner.cpp L368-383). The
wrapper is external: `unwrap` is `none` when it throws. -/
def toDianaSearch {CK : Type} (unwrap : List UInt8 → Option CK) (mes : DianaSearchMessage) :
    Except MemFault (DianaRawSearch CK) := do
  let rcprf ← match unwrap mes.rcprfRep with
    | some r => Except.ok r
    | none => Except.error MemFault.exception
  let token ← copyAll mes.kwToken (Buffer.new 32)
  return { kwToken := token, rcprf := rcprf, addCount := mes.addCount }

/-- `request_to_message(wrapper, const SearchRequest&)` (diana/client_runner.cpp L491-511) -/
def ofDianaSearch {CK : Type} (wrap : CK → List UInt8) (kwToken : Vector UInt8 32) (rcprf : CK)
    (addCount : UInt32) : DianaSearchMessage where
  rcprfRep := wrap rcprf
  addCount := addCount
  kwToken := kwToken.toList

end Verif.Runner
