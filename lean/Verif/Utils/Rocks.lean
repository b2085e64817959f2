import Verif.Common.Bytes
import Verif.Counter.Model
import Verif.Utils.ListStore

/-!
# The wrappers of RocksDB at the level of bytes

`RockDBWrapper` (`/repo/lib/include/sse/schemes/utils/rocksdb_wrapper.hpp` L38-246), `RocksDBCounter`
(`/repo/lib/utils/rocksdb_wrapper.cpp` L85-190), the lookups of `RockDBListStore` by pointer and
length (rocksdb_wrapper.hpp L311-318 and L442-469) and `GenericRocksDBStore`
(`/repo/lib/include/sse/schemes/pluto/rocksdb_store.hpp` L25-85).

RocksDB is a map from byte strings to byte strings.  The wrappers write objects as the bytes of
their memory and read them back with `memcpy`, without looking at the length of the value found.
Simplifications: RocksDB does not fail (see `Verif.Faults` for failures); the options of RocksDB,
`flush` and `approximate_size` are left out.
-/

namespace Verif.Rocks

open Verif

/-- A byte string (`rocksdb::Slice`, `std::string`). -/
abbrev Bytes := List UInt8

/-- The database: `db_->Get`, `db_->Put` and `db_->Delete`. -/
abbrev DB := Map Bytes Bytes

/-- The only thing that may go wrong: memory beyond the end of a buffer is read. -/
inductive Fault where
  | outOfBounds
  deriving DecidableEq

/-- A trivially copyable C++ type `V`: `sizeof(V)`, the bytes of an object, and the object made of
`sizeof(V)` bytes. -/
structure Layout (V : Type) where
  size : Nat
  enc : V → Bytes
  dec : Bytes → V
  enc_length : ∀ v, (enc v).length = size
  dec_enc : ∀ v, dec (enc v) = v

/-- `memcpy(&data, value.data(), sizeof(V))` (rocksdb_wrapper.hpp L158 and L176, rocksdb_wrapper.cpp
L95, L111 and L144, rocksdb_store.hpp L80) where `value` is a `std::string`: the memory at
`value.data()` is the contents of the string followed by one null character, and nothing else. -/
def copyOut {V : Type} (L : Layout V) (value : Bytes) : Except Fault V :=
  if L.size ≤ value.length + 1 then .ok (L.dec ((value ++ [0]).take L.size))
  else .error .outOfBounds

/-- `Slice(key, key_length)` where `key` points to the buffer `buf`: RocksDB reads `key_length`
bytes (rocksdb_wrapper.hpp L169, L215 and L448). -/
def slice (buf : Bytes) (len : UInt8) : Except Fault Bytes :=
  if len.toNat ≤ buf.length then .ok (buf.take len.toNat) else .error .outOfBounds

/-! ## `RockDBWrapper` -/

/-- `RockDBWrapper::get(const std::string&, std::string&)` (rocksdb_wrapper.hpp L141-146). -/
def getString (db : DB) (key : Bytes) : Option Bytes := db key

/-- `RockDBWrapper::get<N, V>` (rocksdb_wrapper.hpp L148-162), where `key` is the content of the
array: `none` models `return false`. -/
def get {V : Type} (L : Layout V) (db : DB) (key : Bytes) : Except Fault (Option V) :=
  match db key with
  | some value =>
    match copyOut L value with
    | .ok v => .ok (some v)
    | .error f => .error f
  | none => .ok none

/-- `RockDBWrapper::get<V>(const uint8_t*, uint8_t, V&)` (rocksdb_wrapper.hpp L164-180). -/
def getPtr {V : Type} (L : Layout V) (db : DB) (buf : Bytes) (len : UInt8) :
    Except Fault (Option V) :=
  match slice buf len with
  | .ok key => get L db key
  | .error f => .error f

/-- `RockDBWrapper::put<N, V>` (rocksdb_wrapper.hpp L183-201). -/
def put {V : Type} (L : Layout V) (db : DB) (key : Bytes) (v : V) : DB := db.put key (L.enc v)

/-- `RockDBWrapper::remove<N>` (rocksdb_wrapper.hpp L203-211). -/
def remove (db : DB) (key : Bytes) : DB := db.erase key

/-- `RockDBWrapper::remove(const uint8_t*, uint8_t)` (rocksdb_wrapper.hpp L213-220). -/
def removePtr (db : DB) (buf : Bytes) (len : UInt8) : Except Fault DB :=
  match slice buf len with
  | .ok key => .ok (remove db key)
  | .error f => .error f

/-- A writing operation on a `RockDBWrapper`.  `τ` is the set of C++ types used with the database;
`V t` are the values of the type `t`. -/
inductive Write {τ : Type} (V : τ → Type) where
  | put (key : Bytes) (t : τ) (v : V t)
  | remove (key : Bytes)
  | removePtr (buf : Bytes) (len : UInt8)

section

variable {τ : Type} {V : τ → Type}

/-- One writing operation. -/
def step (L : ∀ t, Layout (V t)) (db : DB) : Write V → Except Fault DB
  | .put key t v => .ok (put (L t) db key v)
  | .remove key => .ok (remove db key)
  | .removePtr buf len => removePtr db buf len

/-- Writing operations one after the other. -/
def run (L : ∀ t, Layout (V t)) : DB → List (Write V) → Except Fault DB
  | db, [] => .ok db
  | db, w :: ws =>
    match step L db w with
    | .ok db' => run L db' ws
    | .error f => .error f

end

/-! ## `RocksDBCounter` -/

/-- `uint32_t` on a little-endian machine. -/
def u32 : Layout UInt32 where
  size := 4
  enc := fun v => leBytes 4 v.toNat
  dec := fun l => UInt32.ofNat (ofLeBytes l)
  enc_length := fun v => leBytes_length 4 v.toNat
  dec_enc := fun v => by
    rw [ofLeBytes_leBytes _ _ (by have := v.toNat_lt; omega)]
    simp

/-- `uint64_t`, the values of the databases of Sophos and Diana. -/
def u64 : Layout Index where
  size := 8
  enc := indexBytes
  dec := bytesIndex
  enc_length := indexBytes_length
  dec_enc := bytesIndex_indexBytes

/-- `RocksDBCounter::get` (rocksdb_wrapper.cpp L85-99). -/
def counterGet (db : DB) (key : Bytes) : Except Fault (Option UInt32) := get u32 db key

/-- The value written by `get_and_increment` and `increment` (rocksdb_wrapper.cpp L110-116 and
L141-149). -/
def counterNext (db : DB) (key : Bytes) (default : UInt32) : Except Fault UInt32 :=
  match get u32 db key with
  | .ok (some v) => .ok (v + 1)
  | .ok none => .ok default
  | .error f => .error f

/-- `RocksDBCounter::get_and_increment` (rocksdb_wrapper.cpp L101-132). -/
def counterGetAndIncrement (db : DB) (key : Bytes) : Except Fault (UInt32 × DB) :=
  match counterNext db key 0 with
  | .ok v => .ok (v, put u32 db key v)
  | .error f => .error f

/-- `RocksDBCounter::increment` (rocksdb_wrapper.cpp L134-164). -/
def counterIncrement (db : DB) (key : Bytes) (default : UInt32) : Except Fault DB :=
  match counterNext db key default with
  | .ok v => .ok (put u32 db key v)
  | .error f => .error f

/-- `RocksDBCounter::set` (rocksdb_wrapper.cpp L166-182). -/
def counterSet (db : DB) (key : Bytes) (v : UInt32) : DB := put u32 db key v

/-- `RocksDBCounter::remove_key` (rocksdb_wrapper.cpp L185-190). -/
def counterRemove (db : DB) (key : Bytes) : DB := db.erase key

/-- A call of a method of `RocksDBCounter`. -/
inductive CounterOp where
  | get (key : Bytes)
  | getAndIncrement (key : Bytes)
  | increment (key : Bytes) (default : UInt32)
  | set (key : Bytes) (v : UInt32)
  | removeKey (key : Bytes)

/-- One call: the value given to the caller, if any, and the database. -/
def counterStep (db : DB) : CounterOp → Except Fault (Option UInt32 × DB)
  | .get k =>
    match counterGet db k with
    | .ok r => .ok (r, db)
    | .error f => .error f
  | .getAndIncrement k =>
    match counterGetAndIncrement db k with
    | .ok (v, db') => .ok (some v, db')
    | .error f => .error f
  | .increment k d =>
    match counterIncrement db k d with
    | .ok db' => .ok (none, db')
    | .error f => .error f
  | .set k v => .ok (none, counterSet db k v)
  | .removeKey k => .ok (none, counterRemove db k)

/-- Calls one after the other: what each of them gives, and the database. -/
def counterRun : DB → List CounterOp → Except Fault (List (Option UInt32) × DB)
  | db, [] => .ok ([], db)
  | db, o :: os =>
    match counterStep db o with
    | .ok (r, db') =>
      match counterRun db' os with
      | .ok (rs, db'') => .ok (r :: rs, db'')
      | .error f => .error f
    | .error f => .error f

/-- The same call in the model of `Verif.Counter`, where the store is a map to integers. -/
def mapStep (m : Map Bytes UInt32) : CounterOp → Option UInt32 × Map Bytes UInt32
  | .get k => (Counter.get m k, m)
  | .getAndIncrement k => (some (Counter.getAndIncrement m k).1, (Counter.getAndIncrement m k).2)
  | .increment k d => (none, Counter.increment m k d)
  | .set k v => (none, Counter.set m k v)
  | .removeKey k => (none, Counter.removeKey m k)

/-- The same calls in the model of `Verif.Counter`. -/
def mapRun : Map Bytes UInt32 → List CounterOp → List (Option UInt32) × Map Bytes UInt32
  | m, [] => ([], m)
  | m, o :: os => ((mapStep m o).1 :: (mapRun (mapStep m o).2 os).1, (mapRun (mapStep m o).2 os).2)

/-! ## `RockDBListStore` with keys given by pointer and length -/

/-- Outcome of `RockDBListStore::get`. -/
abbrev ListRead (T : Type) := Except Fault (Bool × ListStore.Read T)

/-- `RockDBListStore::get(const uint8_t*, uint8_t, …)` (rocksdb_wrapper.hpp L442-469). -/
def listGetPtr {T : Type} (S : ListStore.Serializer T) (db : DB) (buf : Bytes) (len : UInt8) :
    ListRead T :=
  match slice buf len with
  | .ok key => .ok (ListStore.get S db key)
  | .error f => .error f

/-- `RockDBListStore::get<N>` (rocksdb_wrapper.hpp L311-318): the length `N` of the key is converted
to `uint8_t`. -/
def listGet {T : Type} (S : ListStore.Serializer T) (db : DB) (key : Bytes) : ListRead T :=
  listGetPtr S db key (UInt8.ofNat key.length)

/-- `RockDBListStore::put<N>` (rocksdb_wrapper.hpp L471-502): the key has its full length. -/
def listPut {T : Type} (S : ListStore.Serializer T) (db : DB) (key : Bytes) (data : List T) : DB :=
  ListStore.put S db key data

/-! ## `GenericRocksDBStore` -/

theorem length_flatMap_indexBytes (l : List Index) : (l.flatMap indexBytes).length = 8 * l.length := by
  induction l with
  | nil => rfl
  | cons a l ih => simp only [List.flatMap_cons, List.length_append, indexBytes_length, ih,
      List.length_cons]; omega

theorem block_flatMap_indexBytes (l : List Index) (i : Nat) (h : i < l.length) :
    ((l.flatMap indexBytes).drop (8 * i)).take 8 = indexBytes l[i] := by
  induction l generalizing i with
  | nil => simp at h
  | cons a l ih =>
    cases i with
    | zero => simp
    | succ i =>
      have h8 : 8 * (i + 1) = (indexBytes a).length + 8 * i := by rw [indexBytes_length]; omega
      rw [List.flatMap_cons, h8, List.drop_length_add_append]
      simpa using ih i (by simpa using h)

/-- `std::array<index_type, N>`. -/
def indexArray (N : Nat) : Layout (Vector Index N) where
  size := 8 * N
  enc := fun v => v.toList.flatMap indexBytes
  dec := fun l => Vector.ofFn (fun i : Fin N => bytesIndex ((l.drop (8 * i.val)).take 8))
  enc_length := fun v => by rw [length_flatMap_indexBytes, Vector.length_toList]
  dec_enc := fun v => by
    ext1 i hi
    rw [Vector.getElem_ofFn, block_flatMap_indexBytes v.toList i (by simpa using hi)]
    simp

/-- What `GenericRocksDBStore::get` does. -/
inductive StoreFault where
  /-- `std::out_of_range("Key not found")` -/
  | outOfRange
  /-- undefined behaviour -/
  | outOfBounds
  deriving DecidableEq

/-- `GenericRocksDBStore::insert<N>` (rocksdb_store.hpp L43-62). -/
def storeInsert {N : Nat} (db : DB) (key : Bytes) (v : Vector Index N) : DB :=
  put (indexArray N) db key v

/-- `GenericRocksDBStore::get<N>` (rocksdb_store.hpp L64-85). -/
def storeGet (N : Nat) (db : DB) (key : Bytes) : Except StoreFault (Vector Index N) :=
  match get (indexArray N) db key with
  | .ok (some v) => .ok v
  | .ok none => .error .outOfRange
  | .error .outOfBounds => .error .outOfBounds

end Verif.Rocks
