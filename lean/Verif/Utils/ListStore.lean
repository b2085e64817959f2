import Verif.Common.Map
import Verif.Common.Bytes

/-!
# The list store

`RockDBListStore`, `/repo/lib/include/sse/schemes/utils/rocksdb_wrapper.hpp` L296-502, and the
only serialisation it is used with, that of the cached results of Janus
(`/repo/lib/janus/janus_server.cpp` L13-68).
-/

namespace Verif.ListStore

open Verif

/-- Outcome of one call of `deserialize(begin, end, out)`. -/
inductive Deser (T : Type) where
  /-- `return false` -/
  | fail
  /-- `return true`: the element, and the bytes from the new `begin` to `end` -/
  | ok (elt : T) (rest : List UInt8)
  /-- bytes beyond `end` were read (undefined behaviour) -/
  | outOfBounds
  deriving DecidableEq

/-- The class `serialization<T>` (rocksdb_wrapper.hpp L285-292). -/
structure Serializer (T : Type) where
  serialize : T → List UInt8
  deserialize : List UInt8 → Deser T

/-- Outcome of `get`. -/
inductive Read (T : Type) where
  /-- the list read -/
  | ok (l : List T)
  /-- undefined behaviour: bytes beyond the end of the value were read -/
  | outOfBounds
  /-- `deserialize` returned `true` without consuming anything: infinite loop -/
  | diverges
  deriving DecidableEq

variable {T K : Type} [DecidableEq K]

/-- `while (deser.deserialize(it, end, elt)) data.push_back(elt)` (rocksdb_wrapper.hpp L434-437 and
L461-465). -/
def getLoop (S : Serializer T) (bytes : List UInt8) (data : List T) : Read T :=
  match S.deserialize bytes with
  | .fail => .ok data
  | .outOfBounds => .outOfBounds
  | .ok elt rest =>
    if rest.length < bytes.length then getLoop S rest (data ++ [elt]) else .diverges
termination_by bytes.length

/-- `RockDBListStore::get` (rocksdb_wrapper.hpp L420-469): the returned boolean and the list, which
is emptied first. -/
def get (S : Serializer T) (m : Map K (List UInt8)) (k : K) : Bool × Read T :=
  match m k with
  | some raw => (true, getLoop S raw [])
  | none => (false, .ok [])

/-- The loop of `put` (rocksdb_wrapper.hpp L477-481). -/
def serializeList (S : Serializer T) (data : List T) : List UInt8 :=
  data.foldl (fun acc elt => acc ++ S.serialize elt) []

/-- `RockDBListStore::put` (rocksdb_wrapper.hpp L471-502). -/
def put (S : Serializer T) (m : Map K (List UInt8)) (k : K) (data : List T) :
    Map K (List UInt8) := m.put k (serializeList S data)

/-! ## The elements stored by Janus -/

/-- `crypto::punct::tag_type`: 16 bytes (`kTagSize = 16`). -/
abbrev Tag := Vector UInt8 16

/-- The 16 bytes of a list as a tag. -/
def tagOf (l : List UInt8) (h : l.length = 16) : Tag := ⟨l.toArray, by simpa using h⟩

/-- `serialization<JanusServer::cached_result_type>` (janus_server.cpp L17-68).  The bounds check
L34-35 uses `sizeof(crypto::punct::kTagSize)`, the size of a `size_t`, i.e. 8, while
`tag.size() = 16` bytes are copied and consumed (L52-56). -/
def janusSerializer : Serializer (Index × Tag) where
  serialize := fun e => indexBytes e.1 ++ e.2.toList
  deserialize := fun bytes =>
    if bytes.length < 8 + 8 then .fail
    else if h : 8 + 16 ≤ bytes.length then
      .ok (bytesIndex (bytes.take 8), tagOf ((bytes.drop 8).take 16) (by simp; omega))
        (bytes.drop (8 + 16))
    else .outOfBounds

end Verif.ListStore
