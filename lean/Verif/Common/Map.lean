/-!
# Key-value stores

RocksDB is an external component.  The wrappers `RockDBWrapper` and `RocksDBCounter`
(`/repo/lib/include/sse/schemes/utils/rocksdb_wrapper.hpp` L141-220,
`/repo/lib/utils/rocksdb_wrapper.cpp` L85-190) use it only through `Get`, `Put` and `Delete`
on single keys, so a store is modelled as a partial function.
Simplification: RocksDB operations do not fail.
-/

namespace Verif

/-- A key-value store: `m k = none` means "not found" (`s.ok() = false`). -/
def Map (K V : Type) : Type := K → Option V

namespace Map

variable {K V : Type} [DecidableEq K]

/-- The empty store (a fresh database directory). -/
def empty : Map K V := fun _ => none

/-- `db_->Put(k, v)`. -/
def put (m : Map K V) (k : K) (v : V) : Map K V := fun k' => if k' = k then some v else m k'

/-- `db_->Delete(k)`. -/
def erase (m : Map K V) (k : K) : Map K V := fun k' => if k' = k then none else m k'

omit [DecidableEq K] in
@[simp] theorem empty_apply (k : K) : (empty : Map K V) k = none := rfl

@[simp] theorem put_self (m : Map K V) (k : K) (v : V) : m.put k v k = some v := by simp [put]

theorem put_of_ne (m : Map K V) {k k' : K} (v : V) (h : k' ≠ k) : m.put k v k' = m k' := by
  simp [put, h]

theorem put_apply (m : Map K V) (k k' : K) (v : V) :
    m.put k v k' = if k' = k then some v else m k' := rfl

@[simp] theorem erase_self (m : Map K V) (k : K) : m.erase k k = none := by simp [erase]

theorem erase_of_ne (m : Map K V) {k k' : K} (h : k' ≠ k) : m.erase k k' = m k' := by
  simp [erase, h]

theorem erase_apply (m : Map K V) (k k' : K) :
    m.erase k k' = if k' = k then none else m k' := rfl

omit [DecidableEq K] in
theorem ext {m m' : Map K V} (h : ∀ k, m k = m' k) : m = m' := funext h

end Map

end Verif
