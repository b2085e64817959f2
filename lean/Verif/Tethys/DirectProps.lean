import Verif.Tethys.AsyncProps
import Verif.Tethys.FilesLemmas
import Verif.Vec.DirectProps

/-!
# C90: lookups in the Tethys store with direct access

`TethysStore::use_direct_IO` (tethys_store.hpp L175-184) changes the access mode of the table. The reads of the two buckets of a key are those
of `Vec/Direct`: `get` in `get_buckets` (L226-247), `async_gets` in `async_get_buckets` (L292-324).
-/

namespace Verif.Tethys

open Verif.Vec Verif.Vec.Direct Spec

/-- The vector after `use_direct_IO(true)` (tethys_store.hpp L121-126, L175-184) on the file of the table: the pages one after the other -/
def directVec (page : Nat) (s : Store) : Option (Vec page) := (Vec.open page s.table.flatten true false).setDirect true

/-- The indexes of the two buckets (tethys_store.hpp L233-240) -/
def bucketIndex (s : Store) (size : Nat) (key : CoreKey) (t : Bool) : Nat :=
  if t then size / 2 + (s.hash key).2.toNat % (size - size / 2) else (s.hash key).1.toNat % (size / 2)

/-- `get_buckets` (tethys_store.hpp L226-247) with the variables of the two calls of `get` at these addresses -/
def directBuckets {page : Nat} (e : Env) (v : Vec page) (addr : Bool → Nat) (s : Store) (key : CoreKey) : Except Fault BucketPair :=
  if v.size / 2 = 0 ∨ v.size - v.size / 2 = 0 then .error .divByZero
  else match Vec.Direct.get e v (addr false) (bucketIndex s v.size key false), Vec.Direct.get e v (addr true) (bucketIndex s v.size key true) with
    | .ok b0, .ok b1 => .ok ⟨bucketIndex s v.size key false, bucketIndex s v.size key true, b0.toList, b1.toList⟩
    | _, _ => .error .runtimeError

/-- `get_list` (tethys_store.hpp L254-289) -/
def directList {page : Nat} (e : Env) (v : Vec page) (addr : Bool → Nat) (s : Store) (enc : ValueEncoder) (key : CoreKey) :
    Except Fault (List Index) :=
  match directBuckets e v addr s key with
  | .error f => .error f
  | .ok p => match enc.decode key p.b0 p.i0 p.b1 p.i1 with
    | .error f => .error f
    | .ok r => .ok (r ++ (s.stash key).getD [])

/-- What the callbacks of `async_get_buckets` (tethys_store.hpp L292-324) get, with the buffers of the two reads at these addresses;
exceptions of `async_gets` are excluded by the hypotheses of the theorems below. -/
def directEnv {page : Nat} (e : Env) (v : Vec page) (addr : Bool → Nat) (s : Store) (enc : ValueEncoder) (key : CoreKey) : Async.Env where
  index := bucketIndex s v.size key
  bucket t := match Vec.Direct.asyncGet e v (addr t) (bucketIndex s v.size key t) with
    | .ok (some b) => some b.toList
    | _ => none
  decode b0 i0 b1 i1 := enc.decode key b0 i0 b1 i1
  stash := (s.stash key).getD []

theorem directVec_eq {page : Nat} (hp : 0 < page) {s : Store} (ht : 2 ≤ s.table.length) (hl : ∀ p ∈ s.table, p.length = page) :
    directVec page s = some ⟨s.table.flatten, 0, s.table.length, true, true, true, []⟩ := by
  have h := flatten_length s.table hl
  have h0 : 0 < s.table.flatten.length := by rw [h]; exact Nat.mul_pos (by omega) hp
  unfold directVec Vec.open
  rw [if_pos h0, h, Nat.mul_div_cancel _ hp]
  rfl

theorem bucketIndex_lt {s : Store} {n : Nat} (hn : 2 ≤ n) (key : CoreKey) (t : Bool) : bucketIndex s n key t < n := by
  have h0 := Nat.mod_lt (s.hash key).1.toNat (show 0 < n / 2 by omega)
  have h1 := Nat.mod_lt (s.hash key).2.toNat (show 0 < n - n / 2 by omega)
  unfold bucketIndex
  cases t <;> simp <;> omega

/-- Reads of the pages, on a device with suitable blocks -/
theorem direct_page {page : Nat} {e : Env} (hs : e.block ∣ page) (ha : e.block ∣ e.align)
    (hp : ∀ p, e.page = some p → p ∣ e.align ∧ 512 ∣ page) {ps : List (List UInt8)} (hl : ∀ p ∈ ps, p.length = page)
    {a : Nat} (hal : e.align ∣ a) {i : Nat} (hi : i < ps.length) :
    ∃ x : Val page, x.toList = ps[i] ∧
      Vec.Direct.get e ⟨ps.flatten, 0, ps.length, true, true, true, []⟩ a i = .ok x ∧
      Vec.Direct.asyncGet e ⟨ps.flatten, 0, ps.length, true, true, true, []⟩ a i = .ok (some x) := by
  have h1 := flatten_page ps hl i hi
  have h2 : ((ps.flatten.drop (i * page)).take page).length = page := by rw [h1]; exact hl _ (List.getElem_mem hi)
  have hi' : ¬ i > ps.length := by omega
  have h3 : e.accepts a page (i * page) = true :=
    accepts_of (fun q hq => ⟨Nat.dvd_trans (hp q hq).1 hal, (hp q hq).2⟩) (Nat.dvd_mul_left ..)
  have h4 : e.passes true a page (i * page) = true := passes_of (Nat.dvd_trans ha hal) hs (Nat.dvd_mul_left ..)
  refine ⟨⟨((ps.flatten.drop (i * page)).take page).toArray, by simpa using h2⟩, by simpa using h1, ?_, ?_⟩
  · unfold Vec.Direct.get
    rw [if_neg hi', if_neg (by simp), if_pos h4]
    unfold Vec.get
    rw [if_neg hi', if_neg (by simp)]
    simp only
    rw [dif_pos h2]
  · unfold Vec.Direct.asyncGet
    rw [if_neg (by simp), if_neg (by simp), if_neg hi', if_neg (by simp [h3]), if_pos h4]
    unfold Vec.asyncGet
    rw [if_neg (by simp), if_neg (by simp), if_neg hi']
    simp only
    rw [dif_pos h2]

/-- The lookups are those of the store with buffered access. -/
theorem direct_same {page : Nat} {e : Env} (hs : e.block ∣ page) (ha : e.block ∣ e.align)
    (hp : ∀ p, e.page = some p → p ∣ e.align ∧ 512 ∣ page) {s : Store} (hn : 2 ≤ s.table.length) (hl : ∀ p ∈ s.table, p.length = page)
    {addr : Bool → Nat} (hal : ∀ t, e.align ∣ addr t) (enc : ValueEncoder) (key : CoreKey) :
    ∃ p, s.getBuckets key = .ok p ∧
      directList e (⟨s.table.flatten, 0, s.table.length, true, true, true, []⟩ : Vec page) addr s enc key = s.getList enc key ∧
      directEnv e (⟨s.table.flatten, 0, s.table.length, true, true, true, []⟩ : Vec page) addr s enc key = Async.envOf s enc key p := by
  have hi := fun t => bucketIndex_lt (s := s) hn key t
  obtain ⟨x, hx, gx, ax⟩ := direct_page hs ha hp hl (hal false) (hi false)
  obtain ⟨y, hy, gy, ay⟩ := direct_page hs ha hp hl (hal true) (hi true)
  have hb : s.getBuckets key = .ok ⟨bucketIndex s s.table.length key false, bucketIndex s s.table.length key true, x.toList, y.toList⟩ := by
    unfold Store.getBuckets
    simp only
    rw [if_neg (by omega)]
    have e0 : s.table[(s.hash key).1.toNat % (s.table.length / 2)]? = some x.toList := by
      rw [hx]; exact List.getElem?_eq_getElem (hi false)
    have e1 : s.table[s.table.length / 2 + (s.hash key).2.toNat % (s.table.length - s.table.length / 2)]? = some y.toList := by
      rw [hy]; exact List.getElem?_eq_getElem (hi true)
    rw [e0, e1]
    rfl
  refine ⟨_, hb, ?_, ?_⟩
  · unfold directList Store.getList directBuckets
    simp only
    rw [if_neg (by omega), gx, gy, hb]
    rfl
  · unfold directEnv Async.envOf
    simp only [Async.Env.mk.injEq]
    refine ⟨funext fun t => by cases t <;> rfl, funext fun t => ?_, trivial, trivial⟩
    cases t with
    | false => rw [ax]; rfl
    | true => rw [ay]; rfl

theorem openStore_table {page n : Nat} {hash : CoreKey → UInt64 × UInt64} {enc : ValueEncoder} {ins : List (CoreKey × List Index)}
    (hn : 2 ≤ n) (hs : SmallEnough page ins) {st : Store} (h : openStore page n hash enc ins none = .ok st) :
    st.table.length = n ∧ ∀ p ∈ st.table, p.length = page := by
  obtain ⟨fs, h1, h2, h3⟩ := C24_build_in_bounds page n hash enc ins none hn hs
  unfold openStore at h
  rw [h1] at h
  simp only [Store.open] at h
  split at h
  · cases h
  · cases h
    exact ⟨h2, h3⟩

/-- **C90** for Tethys: on a device whose block size divides the size of the pages and their alignment (which are the same there), after
`use_direct_IO(true)` on a store built as in C25, `get_list` returns the list of every key that was inserted, in some order, and nothing
for the others. -/
theorem C90_tethys_partial (page n : Nat) (hash : CoreKey → UInt64 × UInt64) (enc : ValueEncoder)
    (ins : List (CoreKey × List Index)) (hn : 2 ≤ n) (hp : 8 ∣ page) (hp0 : 0 < page) (hp63 : page < 2 ^ 63)
    (hs : SmallEnough page ins) (hd : DistinctKeys page ins) (hne : ∀ x ∈ ins, x.2 ≠ [])
    (e : Env) (hb : e.block ∣ page) (ha : e.block ∣ e.align) (hl : ∀ p, e.page = some p → p ∣ e.align ∧ 512 ∣ page)
    (addr : Bool → Nat) (hal : ∀ t, e.align ∣ addr t) :
    ∃ st v, openStore page n hash enc ins none = .ok st ∧ directVec page st = some v ∧
      (∀ x ∈ ins, x.2.length + 6 ≤ page / 8 → ∃ r, directList e v addr st enc x.1 = .ok r ∧ r.Perm x.2) ∧
      ∀ key, (∀ x ∈ ins, x.1 ≠ key) → directList e v addr st enc key = .ok [] := by
  obtain ⟨st, h1, h2, h3⟩ := C25_get_list_partial page n hash enc ins hn hp hp63 hs hd hne
  obtain ⟨ht, htl⟩ := openStore_table hn hs h1
  refine ⟨st, _, h1, directVec_eq hp0 (by omega) htl, fun x hx hf => ?_, fun key hk => ?_⟩
  · obtain ⟨p, -, h, -⟩ := direct_same hb ha hl (by omega) htl hal enc x.1
    rw [h]
    exact h2 x hx hf
  · obtain ⟨p, -, h, -⟩ := direct_same hb ha hl (by omega) htl hal enc key
    rw [h]
    exact h3 key hk

/-- The same for `async_get_list`, with callbacks that do not overlap (see `C28_race` for the others): in either order the callback of the
user is called exactly once, with the list of the key. -/
theorem C90_tethys_async_partial (page n : Nat) (hash : CoreKey → UInt64 × UInt64) (enc : ValueEncoder)
    (ins : List (CoreKey × List Index)) (hn : 2 ≤ n) (hp : 8 ∣ page) (hp0 : 0 < page) (hp63 : page < 2 ^ 63)
    (hs : SmallEnough page ins) (hd : DistinctKeys page ins) (hne : ∀ x ∈ ins, x.2 ≠ [])
    (e : Env) (hb : e.block ∣ page) (ha : e.block ∣ e.align) (hl : ∀ p, e.page = some p → p ∣ e.align ∧ 512 ∣ page)
    (addr : Bool → Nat) (hal : ∀ t, e.align ∣ addr t) (x : CoreKey × List Index) (hx : x ∈ ins) (hf : x.2.length + 6 ≤ page / 8)
    (t : Bool) (k m : Nat) (hk : 3 ≤ k) (hm : 6 ≤ m) :
    ∃ st v r, openStore page n hash enc ins none = .ok st ∧ directVec page st = some v ∧ r.Perm x.2 ∧
      (Async.run (directEnv e v addr st enc x.1) Async.AState.init (List.replicate k t ++ List.replicate m !t)).calls = [r] ∧
      (Async.run (directEnv e v addr st enc x.1) Async.AState.init (List.replicate k t ++ List.replicate m !t)).fault = none := by
  obtain ⟨st, h1, h2, -⟩ := C25_get_list_partial page n hash enc ins hn hp hp63 hs hd hne
  obtain ⟨ht, htl⟩ := openStore_table hn hs h1
  obtain ⟨l, h4, h5⟩ := h2 x hx hf
  obtain ⟨p, hg, -, he⟩ := direct_same hb ha hl (by omega) htl hal enc x.1
  obtain ⟨r, h6, h7, h8, -⟩ := Async.C28_serialised st enc x.1 p l hg h4 t k m hk hm
  exact ⟨st, _, r, h1, directVec_eq hp0 (by omega) htl, h6.trans h5, by rw [he]; exact h7, by rw [he]; exact h8⟩

/-- The concrete lists of C25 on a device with blocks of 52 bytes, and buffers at multiples of 104 -/
example : (8 ∣ 104 ∧ SmallEnough 104 Sample.lists ∧ DistinctKeys 104 Sample.lists ∧ ∀ x ∈ Sample.lists, x.2 ≠ []) ∧
    (52 ∣ 104) ∧ ∀ t : Bool, 104 ∣ (if t then 208 else 1040) := by decide

/-- When the pages are smaller than the blocks of the device (and the reads are done by a thread pool), after `use_direct_IO(true)` every
`get_list` throws and every asynchronous lookup dereferences a null pointer, in either order of the callbacks; with buffered access the same
lookup succeeds. -/
theorem C90_tethys_violated (page n : Nat) (hash : CoreKey → UInt64 × UInt64) (enc : ValueEncoder)
    (ins : List (CoreKey × List Index)) (hn : 2 ≤ n) (hp : 8 ∣ page) (hp0 : 0 < page) (hp63 : page < 2 ^ 63)
    (hs : SmallEnough page ins) (hd : DistinctKeys page ins) (hne : ∀ x ∈ ins, x.2 ≠ [])
    (e : Env) (hb : page < e.block) (hl : e.page = none) (addr : Bool → Nat) (x : CoreKey × List Index) (hx : x ∈ ins)
    (hf : x.2.length + 6 ≤ page / 8) (t : Bool) :
    ∃ st v r, openStore page n hash enc ins none = .ok st ∧ directVec page st = some v ∧ st.getList enc x.1 = .ok r ∧ r.Perm x.2 ∧
      directList e v addr st enc x.1 = .error .runtimeError ∧
      (Async.run (directEnv e v addr st enc x.1) Async.AState.init (List.replicate 3 t ++ List.replicate 6 !t)).fault = some .nullDeref := by
  obtain ⟨st, h1, h2, -⟩ := C25_get_list_partial page n hash enc ins hn hp hp63 hs hd hne
  obtain ⟨ht, htl⟩ := openStore_table hn hs h1
  obtain ⟨r, h4, h5⟩ := h2 x hx hf
  have hv := directVec_eq hp0 (by omega) htl
  have hlen := flatten_length st.table htl
  have hdiv : st.table.flatten.length / page = st.table.length := by rw [hlen, Nat.mul_div_cancel _ hp0]
  obtain ⟨v, hv', h⟩ := C90_small_pages_violated (sz := page) e hp0 hb hl st.table.flatten
    (by rw [hlen]; exact Nat.le_mul_of_pos_left _ (by omega))
  have hv2 : directVec page st = some v := hv'
  rw [hv] at hv2
  obtain rfl := Option.some.inj hv2
  have hi : ∀ u, bucketIndex st st.table.length x.1 u < st.table.flatten.length / page := by
    rw [hdiv]
    exact fun u => bucketIndex_lt (by omega) x.1 u
  refine ⟨st, _, r, h1, hv, h4, h5, ?_, Async.C28_failed_read _ t (Or.inl ?_)⟩
  · unfold directList directBuckets
    simp only
    rw [if_neg (by omega), (h (addr false) _ (hi false)).2.1]
  · unfold directEnv
    simp only
    rw [(h (addr false) _ (hi false)).1]

example : (104 < 512) ∧ (Sample.K 3, [8, 9, 10, 11, 12]) ∈ Sample.lists := by decide

end Verif.Tethys
