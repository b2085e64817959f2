import Verif.Utils.RocksLemmas
import Verif.Pluto.Model
import Mathlib.Data.List.Induction

/-!
# C53: the databases give back what was stored

Property: after any sequence of operations of the wrappers of RocksDB, reading a key gives the value
stored last under it, or nothing if there is none, for every type of values and every length of keys;
and reading never leaves the memory of the value found.
-/

namespace Verif.Rocks

open Verif Verif.Rocks.Spec

section

variable {τ : Type} {V : τ → Type}

/-- Operations fail only when a buffer is shorter than the length given with it. -/
theorem C53_run_iff (L : ∀ t, Layout (V t)) (db : DB) (h : List (Write V)) :
    (∃ db', run L db h = .ok db') ↔ ∀ w ∈ h, InBounds w := by
  induction h generalizing db with
  | nil => simp [run]
  | cons w h ih =>
    simp only [List.forall_mem_cons, ← step_ok_iff L db w, run]
    cases hs : step L db w with
    | ok d => simpa using ih d
    | error f => simp

/-- In every history, a key holds a value or is absent. -/
theorem C53_cases (h : List (Write V)) (k : Bytes) :
    (∃ t v, Holds h k t v) ∨ Absent h k := by
  induction h using List.reverseRecOn with
  | nil => exact .inr (.inl (by simp))
  | append_singleton h w ih =>
    by_cases hk : keyOf w = k
    · cases w with
      | put k' t v =>
        obtain rfl : k' = k := hk
        exact .inl ⟨t, v, h, [], rfl, by simp⟩
      | remove k' => exact .inr (.inr ⟨h, _, [], rfl, hk, trivial, by simp⟩)
      | removePtr buf len => exact .inr (.inr ⟨h, _, [], rfl, hk, trivial, by simp⟩)
    · rcases ih with ⟨t, v, a, b, rfl, hb⟩ | hn | ⟨a, x, b, rfl, h1, h2, hb⟩
      · refine .inl ⟨t, v, a, b ++ [w], by simp, ?_⟩
        simpa [or_imp, forall_and] using ⟨hb, hk⟩
      · refine .inr (.inl ?_)
        simpa [or_imp, forall_and] using ⟨hn, hk⟩
      · refine .inr (.inr ⟨a, x, b ++ [w], by simp, h1, h2, ?_⟩)
        simpa [or_imp, forall_and] using ⟨hb, hk⟩

/-- **C53** (values of one type per key): reading a key at the type of the value stored last gives
that value, whatever other types and keys the database is used with. -/
theorem C53_get_partial (L : ∀ t, Layout (V t)) {h : List (Write V)} {db : DB}
    (hr : run L Map.empty h = .ok db) {k : Bytes} {t : τ} {v : V t} (hh : Holds h k t v) :
    get (L t) db k = .ok (some v) ∧ getString db k = some ((L t).enc v) :=
  ⟨get_of_enc _ (run_holds L hr hh), run_holds L hr hh⟩

/-- **C53** (absent keys): at every type, a key never stored, or removed since, is not found. -/
theorem C53_get_absent (L : ∀ t, Layout (V t)) {h : List (Write V)} {db : DB}
    (hr : run L Map.empty h = .ok db) {k : Bytes} (hh : Absent h k) {W : Type} (M : Layout W) :
    get M db k = .ok none ∧ getString db k = none :=
  ⟨get_of_none _ (run_absent L hr hh), run_absent L hr hh⟩

/-- **C53** (keys given by pointer and length): for every database, the key is made of the first
bytes of the buffer; a key of at most 255 bytes given with its length is that key. -/
theorem C53_pointer_keys {W : Type} (M : Layout W) (db : DB) :
    (∀ (buf : Bytes) (len : UInt8), len.toNat ≤ buf.length →
      getPtr M db buf len = get M db (buf.take len.toNat)) ∧
    (∀ key : Bytes, key.length ≤ 255 →
      getPtr M db key (UInt8.ofNat key.length) = get M db key) := by
  have h1 : ∀ (buf : Bytes) (len : UInt8), len.toNat ≤ buf.length →
      getPtr M db buf len = get M db (buf.take len.toNat) := by
    intro buf len h
    simp only [getPtr, slice, if_pos h]
  refine ⟨h1, fun key hk => ?_⟩
  have : (UInt8.ofNat key.length).toNat = key.length := by
    rw [UInt8.toNat_ofNat']; omega
  rw [h1 key _ (by omega), this, List.take_length]

/-- **C53** (other types, exact): reading at the type `M` a key whose value was stored with the type
`t` leaves the memory of the value exactly when `M` is larger by two bytes or more (the character
after the end of a string may be read). -/
theorem C53_other_type_iff (L : ∀ t, Layout (V t)) {h : List (Write V)} {db : DB}
    (hr : run L Map.empty h = .ok db) {k : Bytes} {t : τ} {v : V t} (hh : Holds h k t v)
    {W : Type} (M : Layout W) :
    get M db k = .error .outOfBounds ↔ (L t).size + 1 < M.size := by
  rw [get_error_iff M (run_holds L hr hh), (L t).enc_length]

end

/-- Two types used with one database. -/
def twoTypes : ∀ b : Bool, Layout (if b then Index else UInt32)
  | true => u64
  | false => u32

/-- A history with two types, removals by both methods, and a value stored again. -/
def sampleHistory : List (Write (fun b : Bool => if b then Index else UInt32)) :=
  [.put [1, 2] true (7 : Index), .put [1] false (3 : UInt32), .removePtr [1, 2, 9] 2,
    .put [5] true (8 : Index), .put [1] false (4 : UInt32), .remove [6], .put [1, 2] true (9 : Index)]

example : ∃ db, run twoTypes Map.empty sampleHistory = .ok db ∧
    get u32 db [1] = .ok (some 4) ∧ get u64 db [1, 2] = .ok (some 9) ∧ get u64 db [6] = .ok none ∧
    get u64 db [1] = .error .outOfBounds := by
  obtain ⟨db, hdb⟩ := (C53_run_iff twoTypes Map.empty sampleHistory).2 (by
    simp [sampleHistory, InBounds])
  refine ⟨db, hdb, ?_, ?_, ?_, ?_⟩
  · exact (C53_get_partial twoTypes hdb (t := false) (v := (4 : UInt32))
      ⟨sampleHistory.take 4, sampleHistory.drop 5, rfl, by simp [sampleHistory, keyOf]⟩).1
  · exact (C53_get_partial twoTypes hdb (t := true) (v := (9 : Index))
      ⟨sampleHistory.take 6, [], rfl, by simp⟩).1
  · refine (C53_get_absent twoTypes hdb (.inr ⟨sampleHistory.take 5, .remove [6],
      sampleHistory.drop 6, rfl, rfl, trivial, by simp [sampleHistory, keyOf]⟩) u64).1
  · exact (C53_other_type_iff twoTypes hdb (t := false) (v := (4 : UInt32))
      ⟨sampleHistory.take 4, sampleHistory.drop 5, rfl, by simp [sampleHistory, keyOf]⟩ u64).2
        (by decide)

/-- **C53 is violated** for a database written with a smaller type: the eight bytes of a
`uint64_t` are read from a value of four bytes. -/
theorem C53_short_value_violated :
    get u64 (put u32 Map.empty [1] 4) [1] = .error .outOfBounds := by
  exact (get_error_iff u64 (value := u32.enc 4) (Map.put_self _ _ _)).2 (by decide)

/-! ## Counters -/

/-- **C53** (counters): every sequence of calls of `RocksDBCounter` on a fresh database, for all
keywords, gives the results of the map of integers used in the other modules. -/
theorem C53_counter_refines (os : List CounterOp) :
    ∃ db, counterRun Map.empty os = .ok ((mapRun Map.empty os).1, db) ∧
      ∀ k, counterGet db k = .ok ((mapRun Map.empty os).2 k) := by
  obtain ⟨db, h1, h2⟩ := rep_run rep_empty os
  exact ⟨db, h1, fun k => rep_get h2 k⟩

/-- **C53** (values of the counters): after any calls, `get` gives nothing for a keyword without
counter, and otherwise the value the counter was started with plus the number of later
increments. -/
theorem C53_counter_value {os : List CounterOp} {rs : List (Option UInt32)} {db : DB}
    (hr : counterRun Map.empty os = .ok (rs, db)) (k : Bytes) :
    (NoCounter os k → counterGet db k = .ok none) ∧
      (∀ v, HasValue os k v → counterGet db k = .ok (some v)) := by
  obtain ⟨db', h1, h2⟩ := C53_counter_refines os
  rw [hr] at h1
  cases h1
  exact ⟨fun h => by rw [h2 k, mapRun_noCounter h], fun v h => by rw [h2 k, mapRun_hasValue h]⟩

/-- In every sequence of calls, a keyword has a counter with some value or has none. -/
theorem C53_counter_cases (os : List CounterOp) (k : Bytes) :
    NoCounter os k ∨ ∃ v, HasValue os k v := by
  induction os using List.reverseRecOn with
  | nil => exact .inl ⟨[], [], rfl, .inl rfl, by simp⟩
  | append_singleton os o ih =>
    by_cases hset : ∃ v, o = .set k v
    · obtain ⟨v, rfl⟩ := hset
      exact .inr ⟨v, os, _, [], v, rfl, ⟨rfl, rfl⟩, .inr rfl, by simp, by simp⟩
    by_cases hrem : o = .removeKey k
    · subst hrem
      exact .inl ⟨os ++ [.removeKey k], [], by simp, .inr ⟨os, rfl⟩, by simp⟩
    have hreset : isReset k o = false := by
      cases o with
      | set k' v =>
        have : k' ≠ k := fun e => hset ⟨v, by rw [e]⟩
        simp [isReset, this]
      | removeKey k' =>
        have : k' ≠ k := fun e => hrem (by rw [e])
        simp [isReset, this]
      | get _ => rfl
      | getAndIncrement _ => rfl
      | increment _ _ => rfl
    rcases ih with ⟨a, b, rfl, ha, hb⟩ | ⟨v, a, x, b, base, rfl, hs, hc, hb, hv⟩
    · cases hi : isIncr k o with
      | false =>
        refine .inl ⟨a, b ++ [o], by simp, ha, ?_⟩
        intro y hy
        rcases List.mem_append.1 hy with hy | hy
        · exact hb y hy
        · obtain rfl := List.mem_singleton.1 hy
          exact ⟨hi, hreset⟩
      | true =>
        have hno : NoCounter (a ++ b) k := ⟨a, b, rfl, ha, hb⟩
        cases o with
        | getAndIncrement k' =>
          exact .inr ⟨0, a ++ b, _, [], 0, rfl, ⟨by simpa [isIncr] using hi, rfl⟩, .inl hno,
            by simp, by simp⟩
        | increment k' d =>
          exact .inr ⟨d, a ++ b, _, [], d, rfl, ⟨by simpa [isIncr] using hi, rfl⟩, .inl hno,
            by simp, by simp⟩
        | get _ => cases hi
        | set _ _ => cases hi
        | removeKey _ => cases hi
    · refine .inr ⟨_, a, x, b ++ [o], base, by simp, hs, hc, ?_, rfl⟩
      intro y hy
      rcases List.mem_append.1 hy with hy | hy
      · exact hb y hy
      · obtain rfl := List.mem_singleton.1 hy
        exact hreset

/-- Calls for two keywords, with an increment that starts a counter at 5. -/
def sampleCalls : List CounterOp :=
  [.getAndIncrement [1], .increment [2] 5, .getAndIncrement [2], .removeKey [1],
    .getAndIncrement [1], .getAndIncrement [2], .getAndIncrement [1], .get [2]]

example : ∃ rs db, counterRun Map.empty sampleCalls = .ok (rs, db) ∧
    counterGet db [1] = .ok (some 1) ∧ counterGet db [2] = .ok (some 7) ∧
    counterGet db [3] = .ok none ∧
    rs = [some 0, none, some 6, none, some 0, some 7, some 1, some 7] := by
  obtain ⟨db, h, _⟩ := C53_counter_refines sampleCalls
  refine ⟨_, db, h, (C53_counter_value h [1]).2 1 ?_, (C53_counter_value h [2]).2 7 ?_,
    (C53_counter_value h [3]).1 ?_, by decide⟩
  · exact ⟨sampleCalls.take 4, .getAndIncrement [1], sampleCalls.drop 5, 0, rfl, ⟨rfl, rfl⟩,
      .inl ⟨sampleCalls.take 4, [], rfl, .inr ⟨sampleCalls.take 3, rfl⟩, by simp⟩, by decide,
      by decide⟩
  · exact ⟨sampleCalls.take 1, .increment [2] 5, sampleCalls.drop 2, 5, rfl, ⟨rfl, rfl⟩,
      .inl ⟨[], sampleCalls.take 1, rfl, .inl rfl, by decide⟩, by decide, by decide⟩
  · exact ⟨[], sampleCalls, rfl, .inl rfl, by decide⟩

/-! ## List stores -/

/-- **C53** (list store): a key of at most 255 bytes is looked up under the key it was stored
with. -/
theorem C53_list_keys_partial {T : Type} (S : ListStore.Serializer T) (db : DB) (key : Bytes)
    (hk : key.length ≤ 255) : listGet S db key = .ok (ListStore.get S db key) := by
  have h : (UInt8.ofNat key.length).toNat = key.length := by
    rw [UInt8.toNat_ofNat']; omega
  simp only [listGet, listGetPtr, slice, h, Nat.le_refl, if_true, List.take_length]

example : listGet ListStore.janusSerializer Map.empty (List.replicate 16 7) = .ok (false, .ok []) := by
  rw [C53_list_keys_partial _ _ _ (by simp)]
  rfl

/-- **C53 is violated** for longer keys: whatever the serialiser and the list, a list stored in an
empty store under a key of 256 bytes is not found. -/
theorem C53_list_long_key_violated {T : Type} (S : ListStore.Serializer T) (key : Bytes)
    (data : List T) (hk : key.length = 256) :
    listGet S (listPut S Map.empty key data) key = .ok (false, .ok []) := by
  have h : (UInt8.ofNat key.length).toNat = 0 := by rw [hk]; rfl
  simp only [listGet, listGetPtr, slice, h, Nat.zero_le, if_true, List.take_zero]
  have hne : ([] : Bytes) ≠ key := by
    intro e; rw [← e] at hk; simp at hk
  simp only [ListStore.get, listPut, ListStore.put, Map.put_of_ne _ _ hne, Map.empty_apply]

example : listGet ListStore.janusSerializer
    (listPut ListStore.janusSerializer Map.empty (List.replicate 256 7) [(5, Vector.replicate 16 1)])
    (List.replicate 256 7) = .ok (false, .ok []) :=
  C53_list_long_key_violated _ _ _ (List.length_replicate ..)

/-! ## The hash table of Pluto -/

/-- Values inserted one after the other in the byte-level store. -/
def storeRun {N : Nat} (kvs : List (Tethys.CoreKey × Vector Index N)) : DB :=
  kvs.foldl (fun db e => storeInsert db e.1.toList e.2) Map.empty

/-- The value inserted last under a key. -/
def lastInserted {N : Nat} (kvs : List (Tethys.CoreKey × Vector Index N)) (k : Tethys.CoreKey) :
    Option (Vector Index N) := (kvs.reverse.find? (fun e => e.1 == k)).map Prod.snd

theorem storeRun_apply {N : Nat} (kvs : List (Tethys.CoreKey × Vector Index N))
    (k : Tethys.CoreKey) :
    storeRun kvs k.toList = (lastInserted kvs k).map (indexArray N).enc := by
  induction kvs using List.reverseRecOn with
  | nil => rfl
  | append_singleton kvs e ih =>
    unfold storeRun lastInserted at *
    rw [List.foldl_append, List.reverse_append]
    simp only [List.foldl_cons, List.foldl_nil, List.reverse_singleton, List.singleton_append,
      List.find?_cons]
    unfold storeInsert put
    rw [Map.put_apply]
    by_cases h : e.1 = k
    · subst h
      simp
    · have h' : k.toList ≠ e.1.toList := fun he => h (Vector.toList_inj.1 he).symm
      have h'' : (e.1 == k) = false := by simpa using h
      rw [if_neg h', h'']
      exact ih

/-- **C53** (Pluto): the RocksDB hash table of Pluto, opened with the page size it was built with,
gives the value inserted last under a key, and the exception `out_of_range` for other keys; this is
what `Verif.Pluto` uses. -/
theorem C53_pluto_store_partial {N : Nat} (kvs : List (Tethys.CoreKey × Vector Index N))
    (k : Tethys.CoreKey) :
    storeGet N (storeRun kvs) k.toList =
      match lastInserted kvs k with
      | some v => .ok v
      | none => .error .outOfRange := by
  unfold storeGet
  have h := storeRun_apply kvs k
  cases hl : lastInserted kvs k with
  | none =>
    rw [hl] at h
    rw [get_of_none _ h]
  | some v =>
    rw [hl] at h
    rw [get_of_enc _ h]

/-- The table of `Verif.Pluto` holds the same values. -/
theorem C53_pluto_refines {N : Nat} (kvs : List (Tethys.CoreKey × Vector Index N)) :
    ∃ m, kvs.foldlM (fun m e => (Pluto.rocksdb N).insert m e.1 e.2) (Pluto.rocksdb N).new = .ok m ∧
      ∀ k, (Pluto.rocksdb N).get m k =
        match storeGet N (storeRun kvs) k.toList with
        | .ok v => .ok v
        | .error _ => .error .outOfRange := by
  have : ∃ m, kvs.foldlM (fun m e => (Pluto.rocksdb N).insert m e.1 e.2) (Pluto.rocksdb N).new = .ok m ∧
      ∀ k, m k = lastInserted kvs k := by
    induction kvs using List.reverseRecOn with
    | nil => exact ⟨_, rfl, fun _ => rfl⟩
    | append_singleton kvs e ih =>
      obtain ⟨m, h1, h2⟩ := ih
      refine ⟨Map.put m e.1 e.2, ?_, fun k => ?_⟩
      · rw [List.foldlM_append, h1]
        rfl
      · rw [Map.put_apply]
        unfold lastInserted
        simp only [List.reverse_append, List.reverse_singleton, List.singleton_append,
          List.find?_cons]
        by_cases h : e.1 = k
        · subst h; simp
        · have h'' : (e.1 == k) = false := by simpa using h
          rw [if_neg (fun x => h x.symm), h'']
          exact h2 k
  obtain ⟨m, h1, h2⟩ := this
  refine ⟨m, h1, fun k => ?_⟩
  rw [C53_pluto_store_partial]
  simp only [h2 k]
  cases lastInserted kvs k <;> rfl

example : let k1 : Tethys.CoreKey := Vector.replicate 16 1
    let k2 : Tethys.CoreKey := Vector.replicate 16 2
    let kvs : List (Tethys.CoreKey × Vector Index 2) := [(k1, #v[5, 6]), (k2, #v[7, 8]), (k1, #v[9, 1])]
    storeGet 2 (storeRun kvs) k1.toList = .ok #v[9, 1] ∧
      storeGet 2 (storeRun kvs) (Vector.replicate 16 3 : Tethys.CoreKey).toList = .error .outOfRange := by
  refine ⟨?_, ?_⟩
  · rw [C53_pluto_store_partial]
    rfl
  · rw [C53_pluto_store_partial]
    rfl

/-- **C53 is violated** when a Pluto database is opened with another page size: if the blocks of the
server have more entries than those of the builder, every lookup of a stored block reads beyond the
end of the value. -/
theorem C53_pluto_page_size_violated {N M : Nat} (hNM : N < M) (db : DB) (k : Bytes)
    (v : Vector Index N) : storeGet M (storeInsert db k v) k = .error .outOfBounds := by
  have h : get (indexArray M) (storeInsert db k v) k = .error .outOfBounds := by
    refine (get_error_iff (indexArray M) (value := (indexArray N).enc v) (Map.put_self _ _ _)).2 ?_
    rw [(indexArray N).enc_length]
    show 8 * N + 1 < 8 * M
    omega
  unfold storeGet
  rw [h]

example : storeGet 506 (storeInsert Map.empty [1] (Vector.replicate 250 (0 : Index))) [1] =
    .error .outOfBounds := C53_pluto_page_size_violated (by decide) _ _ _

end Verif.Rocks
