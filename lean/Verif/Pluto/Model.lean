import Verif.Tethys.Scheme
import Verif.Oceanus.Cuckoo

/-!
# The Pluto scheme

Model of `lib/include/sse/schemes/pluto/pluto_builder.hpp`, `pluto_client.hpp`, `pluto_server.hpp`,
`types.hpp` and `rocksdb_store.hpp`. The full blocks of the lists are stored in a hash table, with `N`
indexes per value, and the last blocks, which are not full, in a Tethys store. The hash table is the cuckoo
table (`DefaultPlutoParams`) or a RocksDB database (`RocksDBPlutoParams`), which is a map here. The
pseudo-random function, the hash function and the random keys are parameters.
-/

namespace Verif.Pluto

open Tethys (CoreKey Token deriveCoreKey ValueEncoder)

/-- What may go wrong -/
inductive Fault where
  /-- an exception of the Tethys store -/
  | tethys (f : Tethys.Fault)
  /-- an exception of the hash table -/
  | table (f : Oceanus.Fault)
  /-- the loop of the server goes on -/
  | running
deriving DecidableEq, Repr

/-! ## The hash tables -/

/-- What the scheme uses of `Params::ht_builder_type` and `Params::ht_type`, for values of type
`std::array<index_type, N>`. `commit` commits the table, and opens it for the server. -/
structure HashTable (N : Nat) where
  B : Type
  T : Type
  new : B
  insert : B → CoreKey → Vector Index N → Except Oceanus.Fault B
  commit : B → Except Oceanus.Fault T
  get : T → CoreKey → Except Oceanus.Fault (Vector Index N)

/-- `RocksDBStoreBuilder<N>` (rocksdb_store.hpp L43-112), with `Put` and `Get` that succeed -/
@[reducible] def rocksdb (N : Nat) : HashTable N where
  B := Map CoreKey (Vector Index N)
  T := Map CoreKey (Vector Index N)
  new := Map.empty
  insert := fun m k v => .ok (m.put k v)
  commit := fun m => .ok m
  get := fun m k => match m k with
    | none => .error .outOfRange
    | some v => .ok v

/-- `PlutoValueSerializer::serialize` (types.hpp L49-53) -/
def serializeValue {N : Nat} (v : Vector Index N) : Vector UInt8 (8 * N) :=
  Vector.ofFn (fun i => (indexBytes v[i.val / 8])[i.val % 8]'(by rw [indexBytes_length]; omega))

/-- `PlutoValueSerializer::deserialize` (types.hpp L55-61) -/
def deserializeValue {N : Nat} (p : Vector UInt8 (8 * N)) : Vector Index N :=
  Vector.ofFn (fun i => bytesIndex (List.ofFn (fun j : Fin 8 => p[8 * i.val + j.val])))

/-- `CuckooBuilder` and `CuckooHashTable` with the types of `DefaultPlutoParams` (types.hpp L78-130).
`PlutoCuckooHasher` (L63-75) copies the key, as the hasher of Oceanus. -/
@[reducible] def cuckoo (N size depth : Nat) : HashTable N where
  B := Oceanus.Builder (8 * N)
  T := Oceanus.Table (8 * N)
  new := Oceanus.Builder.new (8 * N) size depth Oceanus.oceanusHash
  insert := fun b k v => b.insert k (serializeValue v)
  commit := fun b => match b.commit with
    | .error f => .error f
    | .ok file => Oceanus.Table.open Oceanus.oceanusHash file
  get := fun t k => match t.get k with
    | .error f => .error f
    | .ok p => .ok (deserializeValue p)

/-! ## The builder -/

variable {N : Nat}

/-- `PlutoBuilder` (pluto_builder.hpp L15-67) -/
structure Builder (ht : HashTable N) where
  store : Tethys.Builder
  table : ht.B
  /-- `complete_lists` -/
  complete : Nat

/-- `ht_value_type v = {0x00}; std::copy(block.begin(), block.end(), v.begin())` (pluto_builder.hpp
L147-148). The block has at most `N` entries. -/
def padded (N : Nat) (block : List Index) : Vector Index N :=
  Vector.ofFn (fun i => block.getD i.val 0)

/-- The loop of `insert_list` (pluto_builder.hpp L135-159): `block` is the current block and `c` the
block counter; `L` is `kPlutoListLength`. The result has the last block. -/
def insertLoop (ht : HashTable N) (L : Nat) (key : Nat → CoreKey) :
    List Index → List Index → Nat → Builder ht → Except Fault (Builder ht × List Index)
  | [], block, _, b => .ok (b, block)
  | id :: ids, block, c, b =>
    let block := block ++ [id]
    if block.length = L then
      match ht.insert b.table (key c) (padded N block) with
      | .error f => .error (.table f)
      | .ok t => insertLoop ht L key ids [] (c + 1) { b with table := t, complete := b.complete + 1 }
    else insertLoop ht L key ids block c b

/-- `PlutoBuilder::insert_list` (pluto_builder.hpp L122-178) -/
def Builder.insertList {W : Type} {ht : HashTable N} (L : Nat) (prf : W → Token)
    (H : List UInt8 → CoreKey) (b : Builder ht) (w : W) (ids : List Index) :
    Except Fault (Builder ht) :=
  let key := deriveCoreKey H (prf w)
  match insertLoop ht L key ids [] 1 b with
  | .error f => .error f
  | .ok (b, block) =>
    if block.length > 0 then
      match b.store.insertList (key 0) block with
      | (_, .error f) => .error (.tethys f)
      | (s, .ok ()) => .ok { b with store := s }
    else .ok b

/-- Insertion of a whole index, stopping at the first exception (`load_inverted_index`,
pluto_builder.hpp L181-234) -/
def Builder.insertIndex {W : Type} {ht : HashTable N} (L : Nat) (prf : W → Token)
    (H : List UInt8 → CoreKey) (b : Builder ht) : List (W × List Index) → Except Fault (Builder ht)
  | [] => .ok b
  | x :: xs => match b.insertList L prf H x.1 x.2 with
    | .error f => .error f
    | .ok b => b.insertIndex L prf H xs

/-- `n_full_blocks` (pluto_builder.hpp L95) -/
def nFullBlocks (L : Nat) (n : UInt64) : UInt64 := 1 + (n - 1) / UInt64.ofNat L

/-- The loop that inserts dummy blocks (pluto_builder.hpp L99-103), with the given random keys -/
def addDummies (ht : HashTable N) : List CoreKey → ht.B → Except Fault ht.B
  | [], t => .ok t
  | k :: ks, t => match ht.insert t k (padded N []) with
    | .error f => .error (.table f)
    | .ok t => addDummies ht ks t

/-- `PlutoBuilder::build` (pluto_builder.hpp L84-119): the hash table and the files of the Tethys store.
`rand i` is the random key of the iteration `i`. -/
def Builder.build {ht : HashTable N} (L : Nat) (n : UInt64) (rand : Nat → CoreKey) (enc : ValueEncoder)
    (b : Builder ht) : Except Fault (ht.T × Tethys.Files) :=
  let dummies := (List.range' b.complete ((nFullBlocks L n).toNat - b.complete)).map rand
  match addDummies ht dummies b.table with
  | .error f => .error f
  | .ok t => match ht.commit t with
    | .error f => .error (.table f)
    | .ok t => match b.store.build enc none with
      | .error f => .error (.tethys f)
      | .ok fs => .ok (t, fs)

/-- The whole construction: `PlutoBuilder(n_elts, …)` (pluto_builder.hpp L69-80), the lists and `build`.
`size` is the number of buckets of the Tethys store. -/
def schemeBuild {W : Type} (ht : HashTable N) (page size L : Nat) (hash : CoreKey → UInt64 × UInt64)
    (prf : W → Token) (H : List UInt8 → CoreKey) (enc : ValueEncoder) (n : UInt64)
    (rand : Nat → CoreKey) (index : List (W × List Index)) : Except Fault (ht.T × Tethys.Files) :=
  match Tethys.Builder.new page size hash with
  | .error f => .error (.tethys f)
  | .ok s => match (Builder.mk s ht.new 0 : Builder ht).insertIndex L prf H index with
    | .error f => .error f
    | .ok b => b.build L n rand enc

/-! ## Searches -/

/-- The loop of `PlutoServer::search` (pluto_server.hpp L56-70), from the block `i` on, where `i` is an
`uint32_t`; the loop has no bound, `fuel` iterations are considered. -/
def serverLoop (ht : HashTable N) (t : ht.T) (key : Nat → CoreKey) :
    Nat → Nat → Except Fault (List Index)
  | 0, _ => .error .running
  | fuel + 1, i => match ht.get t (key (i % 2 ^ 32)) with
    | .error .outOfRange => .ok []
    | .error f => .error (.table f)
    | .ok v => match serverLoop ht t key fuel (i + 1) with
      | .error f => .error f
      | .ok r => .ok (v.toList ++ r)

/-- A search, end to end: `search_request` (pluto_client.hpp L107-115), `PlutoServer::search`
(pluto_server.hpp L51-77), where the Tethys store has no stash (L46), and `decode_search_results`
(pluto_client.hpp L117-134), where the client has the stash (L87-105). -/
def schemeSearch {W : Type} (ht : HashTable N) (hash : CoreKey → UInt64 × UInt64) (prf : W → Token)
    (H : List UInt8 → CoreKey) (enc : ValueEncoder) (t : ht.T) (fs : Tethys.Files) (fuel : Nat) (w : W) :
    Except Fault (List Index) :=
  let key := deriveCoreKey H (prf w)
  match serverLoop ht t key fuel 1 with
  | .error f => .error f
  | .ok complete => match Tethys.Store.open hash ⟨fs.table, none⟩, Tethys.loadStash fs.stash with
    | .ok s, .ok stash => match s.getBuckets (key 0) with
      | .error f => .error (.tethys f)
      | .ok p =>
        let c : Tethys.Client W := ⟨stash, Map.empty, prf, enc⟩
        match c.decodeResults [(key 0, p)] with
        | .error f => .error (.tethys f)
        | .ok r => .ok (r ++ complete)
    | .error f, _ => .error (.tethys f)
    | _, .error f => .error (.tethys f)

/-! ## The two parameter sets -/

/-- `kCuckooListLength` (types.hpp L99-107): the values have room for all the indexes of a page, except
those replaced by the key of 16 bytes. -/
def cuckooLength (page : Nat) : Nat := page / 8 - 2

/-- `kTethysMaxListLength` (types.hpp L92-94, rocksdb_store.hpp L130-132) -/
def tethysLength (page : Nat) : Nat := page / 8 - 6

/-- `kPlutoListLength` of `DefaultPlutoParams` (types.hpp L127-129) -/
def defaultLength (page : Nat) : Nat :=
  if cuckooLength page < tethysLength page then cuckooLength page else tethysLength page

end Verif.Pluto
