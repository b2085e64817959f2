import Verif.Oceanus.AsyncProps
import Verif.Vec.DirectProps

/-!
# C90: asynchronous lookups in the cuckoo table with direct access

`Oceanus::async_get` (oceanus.hpp L227-235) changes the access mode of the file before the first lookup. The reads of the two cells
(cuckoo.hpp L446-451) are those of `Vec/Direct`; `async_gets` (awonvm_vector.hpp L418-480) submits them one after the other.
-/

namespace Verif.Oceanus.Async

open Verif.Vec Verif.Vec.Direct

variable {n : Nat}

/-- The file of the table (cuckoo.hpp L204-244): the cells one after the other -/
def fileOf (t : Table n) : List UInt8 := t.table.flatMap (·.toList)

/-- The vector after `use_direct_IO(true)` (cuckoo.hpp L461-469) -/
def directVec (t : Table n) : Option (Vec (16 + n)) := (Vec.open (16 + n) (fileOf t) true false).setDirect true

/-- What the two read callbacks of a lookup get, with buffers at the addresses `addr` -/
def directReads (e : Env) (v : Vec (16 + n)) (addr : Bool → Nat) (t : Table n) (key : Key) (u : Bool) : Option (Payload n) :=
  match Vec.Direct.asyncGet e v (addr u)
    (if u then (t.hash key).h1.toNat % t.size + t.size else (t.hash key).h0.toNat % t.size) with
  | .ok r => r
  | .error _ => none

theorem length_flat (l : List (Payload n)) : (l.flatMap (·.toList)).length = l.length * (16 + n) := by
  induction l with
  | nil => simp
  | cons p l ih =>
    rw [List.flatMap_cons, List.length_append, ih, List.length_cons, Nat.succ_mul]
    simp only [Vector.length_toList]
    omega

theorem flat_element (l : List (Payload n)) : ∀ (i : Nat) (p : Payload n), l[i]? = some p →
    ((l.flatMap (·.toList)).drop (i * (16 + n))).take (16 + n) = p.toList := by
  induction l with
  | nil => intro i p h; simp at h
  | cons q l ih =>
    intro i p h
    cases i with
    | zero =>
      obtain rfl : q = p := by simpa using h
      rw [Nat.zero_mul, List.drop_zero, List.flatMap_cons, List.take_append_of_le_length (by simp)]
      exact List.take_of_length_le (by simp)
    | succ i =>
      rw [List.flatMap_cons, Nat.succ_mul, Nat.add_comm (i * _) (16 + n), ← List.drop_drop]
      have : (q.toList ++ l.flatMap (·.toList)).drop (16 + n) = l.flatMap (·.toList) := List.drop_left' (by simp)
      rw [this]
      exact ih i p (by simpa using h)

theorem directVec_eq (t : Table n) (ht : t.table ≠ []) : directVec t = some ⟨fileOf t, 0, t.table.length, true, true, true, []⟩ := by
  have hl : (fileOf t).length = t.table.length * (16 + n) := length_flat t.table
  have hp : 0 < t.table.length := List.length_pos_iff.mpr ht
  have h0 : 0 < (fileOf t).length := by rw [hl]; exact Nat.mul_pos hp (by omega)
  unfold directVec Vec.open
  rw [if_pos h0, hl, Nat.mul_div_cancel _ (by omega)]
  rfl

/-- With pages whose size and alignment are multiples of the block size, the reads give the cells. -/
theorem directReads_eq (e : Env) (hs : e.block ∣ 16 + n) (ha : e.block ∣ e.align)
    (hp : ∀ p, e.page = some p → p ∣ e.align ∧ 512 ∣ 16 + n) (t : Table n) (ht : t.table ≠ []) (hz : t.table.length = 2 * t.size)
    (addr : Bool → Nat) (hal : ∀ u, e.align ∣ addr u) (key : Key) :
    ∃ v, directVec t = some v ∧ directReads e v addr t key = reads t key := by
  refine ⟨_, directVec_eq t ht, funext fun u => ?_⟩
  have hpos : 0 < t.size := by
    have := List.length_pos_iff.mpr ht
    omega
  have hget : ∀ i, i < t.table.length →
      (match Vec.Direct.asyncGet e ⟨fileOf t, 0, t.table.length, true, true, true, []⟩ (addr u) i with
        | .ok r => r
        | .error _ => none) = t.table[i]? := by
    intro i hi
    obtain ⟨p, hpi⟩ : ∃ p, t.table[i]? = some p := ⟨_, List.getElem?_eq_getElem hi⟩
    have h1 := flat_element t.table i p hpi
    have h2 : e.accepts (addr u) (16 + n) (i * (16 + n)) = true :=
      accepts_of (fun q hq => ⟨Nat.dvd_trans (hp q hq).1 (hal u), (hp q hq).2⟩) (Nat.dvd_mul_left ..)
    have h3 : e.passes true (addr u) (16 + n) (i * (16 + n)) = true :=
      passes_of (Nat.dvd_trans ha (hal u)) hs (Nat.dvd_mul_left ..)
    have h4 : Vec.asyncGet (⟨fileOf t, 0, t.table.length, true, true, true, []⟩ : Vec (16 + n)) i = .ok (some p) := by
      unfold Vec.asyncGet
      rw [if_neg (by simp), if_neg (by simp), if_neg (Nat.not_lt.mpr (Nat.le_of_lt hi))]
      simp only
      rw [dif_pos (by rw [fileOf, h1]; simp)]
      congr 2
      apply Vector.toArray_inj.mp
      simp only [fileOf, h1]
      exact Array.toArray_toList
    unfold Vec.Direct.asyncGet
    rw [if_neg (by simp), if_neg (by simp), if_neg (Nat.not_lt.mpr (Nat.le_of_lt hi)), if_neg (by simp [h2]), if_pos h3, h4, hpi]
  cases u with
  | false =>
    have := Nat.mod_lt (t.hash key).h0.toNat hpos
    exact hget _ (by simp; omega)
  | true =>
    have := Nat.mod_lt (t.hash key).h1.toNat hpos
    exact hget _ (by simp; omega)

theorem build_table {size depth : Nat} {hash : Key → CKey} {ins : List (Key × Vector UInt8 n)} {t : Table n}
    (h : build size depth hash ins = .ok t) : t.table ≠ [] ∧ t.table.length = 2 * t.size := by
  have key : ∀ file, Table.open hash file = .ok t → t.table ≠ [] ∧ t.table.length = 2 * t.size := by
    intro file h
    unfold Table.open at h
    split at h
    · cases h
    · split at h
      · cases h
      · cases h
        exact ⟨by assumption, by simp only; omega⟩
  unfold build at h
  split at h
  · cases h
  · split at h
    · cases h
    · exact key _ h

/-- **C90** for Oceanus: on a device whose block size divides the size of the pages and their alignment (which are the same there), the
lookups of `Oceanus::async_get` in a table built from distinct keys give what the synchronous lookup gives, in all interleavings. -/
theorem C90_oceanus_partial (e : Env) (hs : e.block ∣ 16 + n) (ha : e.block ∣ e.align)
    (hp : ∀ p, e.page = some p → p ∣ e.align ∧ 512 ∣ 16 + n) (size depth : Nat) (hash : Key → CKey) (ins : List (Key × Vector UInt8 n))
    (hz : 0 < size) (hl : ins.length < 2 ^ 64) (hd : (ins.map Prod.fst).Nodup) (k : Key) (hk : k ≠ Spec.allOnes)
    (addr : Bool → Nat) (hal : ∀ u, e.align ∣ addr u) (sched : List Bool) (hc : ∀ u, 6 ≤ sched.count u) :
    ∃ t v, build size depth hash ins = .ok t ∧ directVec t = some v ∧
      (run k (directReads e v addr t k) AState.init sched).fault = none ∧
      (run k (directReads e v addr t k) AState.init sched).calls = [(t.get k).toOption] := by
  obtain ⟨t, h1, h2, h3⟩ := C33_table_partial size depth hash ins hz hl hd k hk sched
  obtain ⟨ht, htz⟩ := build_table h1
  obtain ⟨v, hv, hr⟩ := directReads_eq e hs ha hp t ht htz addr hal k
  exact ⟨t, v, h1, hv, by rw [hr]; exact h2, by rw [hr]; exact h3 hc⟩

/-- When the pages are smaller than the blocks of the device, `Oceanus::async_get` with a thread pool reports every key as absent, in all
interleavings, also those that the synchronous lookup found before. -/
theorem C90_oceanus_absent_violated (e : Env) (hb : 16 + n < e.block) (hp : e.page = none) (size depth : Nat)
    (hash : Key → CKey) (ins : List (Key × Vector UInt8 n)) (t : Table n) (ht : build size depth hash ins = .ok t) (addr : Bool → Nat) (k : Key) (sched : List Bool) (hc : ∀ u, 6 ≤ sched.count u) :
    ∃ v, directVec t = some v ∧ (run k (directReads e v addr t k) AState.init sched).calls = [none] := by
  obtain ⟨ht, hz⟩ := build_table ht
  refine ⟨_, directVec_eq t ht, ?_⟩
  have hpos : 0 < t.size := by
    have := List.length_pos_iff.mpr ht
    omega
  have hl : (fileOf t).length = t.table.length * (16 + n) := length_flat t.table
  have hn : directReads e ⟨fileOf t, 0, t.table.length, true, true, true, []⟩ addr t k = fun _ => none := by
    funext u
    have hi : ∀ i, i < t.table.length →
        Vec.Direct.asyncGet (sz := 16 + n) e ⟨fileOf t, 0, t.table.length, true, true, true, []⟩ (addr u) i = .ok none := by
      intro i hi
      have h1 := List.length_pos_iff.mpr ht
      have hdiv : (fileOf t).length / (16 + n) = t.table.length := by rw [hl, Nat.mul_div_cancel _ (by omega)]
      obtain ⟨v, hv, h⟩ := C90_small_pages_violated (sz := 16 + n) e (by omega) hb hp (fileOf t)
        (by rw [hl]; exact Nat.le_mul_of_pos_left _ h1)
      have hv' : directVec t = some v := hv
      rw [directVec_eq t ht] at hv'
      obtain rfl := Option.some.inj hv'
      exact (h (addr u) i (by rw [hdiv]; exact hi)).1
    unfold directReads
    cases u with
    | false =>
      have := Nat.mod_lt (t.hash k).h0.toNat hpos
      rw [hi _ (by simp; omega)]
    | true =>
      have := Nat.mod_lt (t.hash k).h1.toNat hpos
      rw [hi _ (by simp; omega)]
  rw [hn]
  exact ((C33_once_partial k (fun _ => none) (Or.inl rfl) sched _ rfl).2.2.2 hc).1

/-- A table of pages of 17 bytes with a key, which the synchronous lookup finds -/
example : (build 2 4 oceanusHash [(Sample.key, (#v[42] : Vector UInt8 1))]).toOption.map (fun t => (t.get Sample.key).toOption) = some (some #v[42]) ∧
    Sample.key ≠ Spec.allOnes ∧ 17 ∣ 34 ∧ 17 < 512 := by decide +kernel

end Verif.Oceanus.Async
