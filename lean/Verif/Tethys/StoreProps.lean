import Verif.Tethys.StoreGet

/-!
# Properties of the Tethys store (C24, C25, C27, C29)

The statements quantify over the page size, the number of buckets, the hash function and the lists;
`buildStore` and `openStore` run the builder from scratch.
-/

namespace Verif.Tethys

open Spec

/-! ## Concrete stores for the examples -/

namespace Sample

/-- Keys of the examples -/
def K (n : Nat) : CoreKey := Vector.ofFn (fun i => if i.val = 0 then UInt8.ofNat n else 0)

/-- The identity hasher (types.hpp L47-59): the two halves of the key -/
def hash (k : CoreKey) : UInt64 × UInt64 :=
  (UInt64.ofNat (ofLeBytes (k.toList.take 8)), UInt64.ofNat (ofLeBytes (k.toList.drop 8)))

/-- A cipher for the examples -/
def cipher : Cipher := fun _ v i => UInt8.ofNat (7 * v + 3 * i + 1)

/-- A key of the cipher -/
def key : Vector UInt8 32 := Vector.ofFn (fun i => UInt8.ofNat i.val)

/-- Three lists in two buckets of thirteen entries; the third one is cut, and the fourth does not fit -/
def lists : List (CoreKey × List Index) :=
  [(K 1, [1, 2, 3, 4]), (K 2, [5, 6, 7]), (K 3, [8, 9, 10, 11, 12]), (K 4, List.replicate 8 0)]

/-- What a lookup returns -/
def query (page n : Nat) (enc : ValueEncoder) (ins : List (CoreKey × List Index))
    (old : Option (List UInt8)) (k : CoreKey) : Except Fault (List Index) :=
  match openStore page n hash enc ins old with
  | .error f => .error f
  | .ok s => s.getList enc k

end Sample

/-! ## C24 -/

/-- **C24.** Whatever the lists, the hash function and the page size, building the store never faults:
no write outside of the page, no `Out of bound write`. The table has one page of the right size per
bucket. -/
theorem C24_build_in_bounds (page n : Nat) (hash : CoreKey → UInt64 × UInt64) (enc : ValueEncoder)
    (ins : List (CoreKey × List Index)) (old : Option (List UInt8)) (hn : 2 ≤ n)
    (hs : SmallEnough page ins) :
    ∃ files, buildStore page n hash enc ins old = .ok files ∧ files.table.length = n ∧
      ∀ p ∈ files.table, p.length = page := by
  obtain ⟨recs, cs, b0, hb0, -, -, hsize, -, hbuild⟩ := build_spec hash hn ins hs
  refine ⟨_, by unfold buildStore; rw [hb0]; exact hbuild enc old, by simp, ?_⟩
  intro p hp
  obtain ⟨v, hv, rfl⟩ := List.mem_map.mp hp
  rw [seal_length]
  have := hsize v (List.mem_range.mp hv)
  unfold pageOf
  rw [List.length_append, List.length_replicate]
  omega

/-- The hypotheses hold for a concrete store with a stash, a cut list and a rejected list. -/
example : SmallEnough 107 Sample.lists := by decide

theorem insert_page {a a' : Allocator} {l : ListInfo} (h : a.insert l = .ok a') : a'.page = a.page := by
  unfold Allocator.insert at h
  split at h; · simp at h
  split at h; · simp at h
  split at h; · simp at h
  split at h
  · simp at h
  · cases h; rfl

theorem insertAll_page {a a' : Allocator} {ls : List ListInfo} (h : a.insertAll ls = .ok a') :
    a'.page = a.page := by
  induction ls generalizing a with
  | nil => cases h; rfl
  | cons l ls ih =>
    unfold Allocator.insertAll at h
    split at h
    · simp at h
    · rename_i a1 h1
      rw [ih h, insert_page h1]

/-- A list is rejected exactly when it does not fit in a page, and a rejected list leaves the
accepted ones untouched (they are still found, see `C25_get_list_partial`). -/
theorem C24_insert_rejects (page n : Nat) (hash : CoreKey → UInt64 × UInt64)
    (ins : List (CoreKey × List Index)) (x : CoreKey × List Index) (hn : 2 ≤ n)
    (hs : SmallEnough page (ins ++ [x])) :
    ∃ b, Builder.new page n hash = .ok b ∧
      ((b.insertAll ins).insertList x.1 x.2).2 =
        if x.2.length + 6 ≤ page / 8 then .ok () else .error .invalidArgument := by
  have hs' : SmallEnough page ins := by
    unfold SmallEnough at hs ⊢
    rw [List.map_append, List.sum_append] at hs
    omega
  obtain ⟨b, a0, a, hb, ha0, ha, hbi⟩ := insertAll_builder hash hn ins hs'
  refine ⟨b, hb, ?_⟩
  rw [hbi]
  have hlen : x.2.length + 6 < 2 ^ 64 := by
    unfold SmallEnough at hs
    have := le_sum_of_mem (xs := ins ++ [x]) (x := x) (by simp)
    omega
  unfold Builder.insertList
  simp only [Bool.false_eq_true, if_false]
  rw [if_neg (by omega)]
  have he : (⟨(hash x.1).1.toNat % (n / 2), n / 2 + (hash x.1).2.toNat % (n - n / 2),
      UInt64.ofNat x.2.length + 6, UInt64.ofNat ((ins ++ [(x.1, x.2)]).length - 1)⟩ : ListInfo) =
      infoOf n hash (x, ins.length) := by simp [infoOf, bucket0, bucket1]
  rw [he]
  by_cases hx : x.2.length + 6 ≤ page / 8
  · rw [if_pos hx]
    obtain ⟨b', a0', a', hb', ha0', ha', -⟩ := insertAll_builder hash hn (ins ++ [x]) hs
    rw [ha0] at ha0'
    cases ha0'
    have hfit : fits page x = true := decide_eq_true hx
    rw [placed_append, if_pos hfit, List.map_append, insertAll_append, ha] at ha'
    simp only [List.map_cons, List.map_nil, Allocator.insertAll] at ha'
    cases hi : a.insert (infoOf n hash (x, ins.length)) with
    | error f => rw [hi] at ha'; simp at ha'
    | ok a2 => rfl
  · rw [if_neg hx]
    have hpage : a.page = UInt64.ofNat (page / 8) := by
      rw [insertAll_page ha]
      unfold Allocator.new at ha0
      split at ha0
      · simp at ha0
      · cases ha0; rfl
    rw [C22_insert_rejects]
    refine Or.inr (Or.inr ?_)
    rw [hpage, gt_iff_lt, UInt64.lt_iff_toNat_lt, infoOf_len hlen, UInt64.toNat_ofNat',
      Nat.mod_eq_of_lt (by unfold SmallEnough at hs; omega)]
    exact Nat.lt_of_not_le hx

/-- Among the lists of the example, the last one does not fit. -/
example : Sample.lists.map (fits 107) = [true, true, true, false] := by decide

/-! ## C25 -/

/-- What `get_list` returns, from the description of the files -/
theorem getList_spec (page n : Nat) (hash : CoreKey → UInt64 × UInt64) (enc : ValueEncoder)
    (ins : List (CoreKey × List Index)) (hn : 2 ≤ n) (hp : 8 ∣ page) (hp63 : page < 2 ^ 63)
    (hs : SmallEnough page ins) (hd : DistinctKeys page ins) :
    ∃ st, openStore page n hash enc ins none = .ok st ∧
      (∀ x ∈ ins, fits page x = true → ∃ r, st.getList enc x.1 = .ok r ∧ r.Subperm x.2 ∧
        ((∀ y ∈ ins, fits page y = true → y.2 ≠ []) → r.Perm x.2)) ∧
      ∀ key, (∀ x ∈ ins, fits page x = true → x.1 ≠ key) → st.getList enc key = .ok [] := by
  obtain ⟨recs, cs, b0, hb0, hrecs, hsp, hsize, hcs, hbuild⟩ := build_spec hash hn ins hs
  have hkeys : recs.map Placed.key = (ins.filter (fits page)).map Prod.fst := by
    rw [← hrecs, List.map_map]; rfl
  have hd' : (recs.map Placed.key).Nodup := by rw [hkeys]; exact hd
  have hmem : ∀ r ∈ recs, (r.key, r.vals) ∈ ins ∧ fits page (r.key, r.vals) = true := by
    intro r hr
    have : (r.key, r.vals) ∈ ins.filter (fits page) := by
      rw [← hrecs]; exact List.mem_map.mpr ⟨r, hr, rfl⟩
    exact List.mem_filter.mp this
  have hlen : ∀ r ∈ recs, r.vals.length < 2 ^ 64 := by
    intro r hr
    have := of_decide_eq_true (hmem r hr).2
    simp only at this
    omega
  obtain ⟨m, hm, hm1, hm2⟩ := loadStash_spec recs hsp hlen hd'
  obtain ⟨hl1, hl2⟩ := lookup_spec hash hn recs cs hd' hcs
  refine ⟨⟨(List.range n).map (fun v => enc.seal v (pageOf page (cs v))), hash, m⟩, ?_, ?_, ?_⟩
  · unfold openStore buildStore
    rw [hb0]
    simp only
    rw [hbuild enc none]
    simp only [Store.open]
    rw [hm]
  · intro x hx hfx
    have hxr : x ∈ recs.map (fun r => (r.key, r.vals)) := by
      rw [hrecs]; exact List.mem_filter.mpr ⟨hx, hfx⟩
    obtain ⟨r, hr, rfl⟩ := List.mem_map.mp hxr
    have hstash : (m r.key).getD [] = r.mid := by
      rw [hm1 r hr]
      by_cases h : r.mid = []
      · rw [if_pos h, h]; rfl
      · rw [if_neg h]; rfl
    refine ⟨lookupChunk r.key (cs (bucket0 n hash r.key)) ++ lookupChunk r.key (cs (bucket1 n hash r.key)) ++
      r.mid, ?_, ?_, ?_⟩
    · unfold Store.getList
      simp only
      rw [getBuckets_spec hash hn]
      simp only
      rw [decode_pages hash hn hp hp63 enc cs hsize, hstash]
    · obtain ⟨h0, h1, -⟩ := hl1 r hr
      have hpa := r.parts_append (hsp r hr)
      have hperm : (r.vals.drop (r.vals.length - r.k0) ++ r.vals.take r.k1 ++ r.mid).Perm r.vals := by
        conv_rhs => rw [← hpa]
        rw [List.perm_iff_count]
        intro a
        simp only [List.count_append]
        omega
      refine List.Subperm.trans ?_ hperm.subperm
      apply List.Sublist.subperm
      apply List.Sublist.append _ (List.Sublist.refl _)
      apply List.Sublist.append
      · rcases h0 with h | h <;> rw [h]
        exact List.nil_sublist _
      · rcases h1 with h | h <;> rw [h]
        exact List.nil_sublist _
    · intro hne
      obtain ⟨-, -, h⟩ := hl1 r hr
      obtain ⟨h0, h1⟩ := h (fun r hr => hne _ (hmem r hr).1 (hmem r hr).2)
      rw [h0, h1]
      have hpa := r.parts_append (hsp r hr)
      show List.Perm _ r.vals
      conv_rhs => rw [← hpa]
      rw [List.perm_iff_count]
      intro a
      simp only [List.count_append]
      omega
  · intro key hk
    have hk' : ∀ r ∈ recs, r.key ≠ key := fun r hr => hk _ (hmem r hr).1 (hmem r hr).2
    unfold Store.getList
    simp only
    rw [getBuckets_spec hash hn]
    simp only
    rw [decode_pages hash hn hp hp63 enc cs hsize, hm2 key hk', hl2 key hk', hl2 key hk']
    rfl

/-- **C25**, restricted to non-empty lists, to pages whose size is a multiple of eight bytes, and to a
directory without stash file: `get_list` of an inserted key returns its list, in some order, and
nothing for another key. The full property, which also allows empty lists, any page size and any prior
stash file, is false: see `C25_empty_list_loses_data`, `C25_unaligned_page_out_of_bounds` and
`C25_stale_stash`. -/
theorem C25_get_list_partial (page n : Nat) (hash : CoreKey → UInt64 × UInt64) (enc : ValueEncoder)
    (ins : List (CoreKey × List Index)) (hn : 2 ≤ n) (hp : 8 ∣ page) (hp63 : page < 2 ^ 63)
    (hs : SmallEnough page ins) (hd : DistinctKeys page ins)
    (hne : ∀ x ∈ ins, x.2 ≠ []) :
    ∃ st, openStore page n hash enc ins none = .ok st ∧
      (∀ x ∈ ins, x.2.length + 6 ≤ page / 8 → ∃ r, st.getList enc x.1 = .ok r ∧ r.Perm x.2) ∧
      ∀ key, (∀ x ∈ ins, x.1 ≠ key) → st.getList enc key = .ok [] := by
  obtain ⟨st, h1, h2, h3⟩ := getList_spec page n hash enc ins hn hp hp63 hs hd
  refine ⟨st, h1, ?_, ?_⟩
  · intro x hx hf
    obtain ⟨r, h4, -, h5⟩ := h2 x hx (decide_eq_true hf)
    exact ⟨r, h4, h5 (fun y hy _ => hne y hy)⟩
  · intro key hk
    exact h3 key (fun x hx _ => hk x hx)

/-- The hypotheses hold for the concrete lists. -/
example : 8 ∣ 104 ∧ SmallEnough 104 Sample.lists ∧ DistinctKeys 104 Sample.lists ∧
    ∀ x ∈ Sample.lists, x.2 ≠ [] := by decide

/-- On the concrete lists, with two buckets of thirteen entries: the third list is spread over a
bucket and the stash. -/
example : Sample.query 104 2 .separate Sample.lists none (Sample.K 3) = .ok [9, 10, 11, 12, 8] := by
  decide +kernel

/-- **C25**, soundness with empty lists allowed: a lookup never faults and never returns a value
outside of the list, or more often than in the list. -/
theorem C25_get_list_sound (page n : Nat) (hash : CoreKey → UInt64 × UInt64) (enc : ValueEncoder)
    (ins : List (CoreKey × List Index)) (hn : 2 ≤ n) (hp : 8 ∣ page) (hp63 : page < 2 ^ 63)
    (hs : SmallEnough page ins) (hd : DistinctKeys page ins) :
    ∃ st, openStore page n hash enc ins none = .ok st ∧
      (∀ x ∈ ins, x.2.length + 6 ≤ page / 8 → ∃ r, st.getList enc x.1 = .ok r ∧ r.Subperm x.2) ∧
      ∀ key, (∀ x ∈ ins, x.2.length + 6 ≤ page / 8 → x.1 ≠ key) → st.getList enc key = .ok [] := by
  obtain ⟨st, h1, h2, h3⟩ := getList_spec page n hash enc ins hn hp hp63 hs hd
  refine ⟨st, h1, ?_, ?_⟩
  · intro x hx hf
    obtain ⟨r, h4, h5, -⟩ := h2 x hx (decide_eq_true hf)
    exact ⟨r, h4, h5⟩
  · intro key hk
    exact h3 key (fun x hx hf => hk x hx (of_decide_eq_true hf))

/-- The first hypothesis of `C25_get_list_partial` is needed: an empty list occupies a bucket with the
length 0, which the decoder takes for the end of the bucket. Here the list of the second key is lost. -/
theorem C25_empty_list_loses_data :
    Sample.query 120 2 .separate [(Sample.K 1, []), (Sample.K 2, [10])] none (Sample.K 2) = .ok [] := by
  decide +kernel

/-- The other hypotheses hold for these lists. -/
example : 8 ∣ 120 ∧ SmallEnough 120 [(Sample.K 1, []), (Sample.K 2, [10])] ∧
    DistinctKeys 120 [(Sample.K 1, []), (Sample.K 2, [10])] := by decide

/-- The lists of the second counterexample -/
def Sample.unaligned : List (CoreKey × List Index) :=
  [(Sample.K 1, [1]), (Sample.K 2, [2]), (Sample.K 3, [3, 4, 5])]

/-- The alignment hypothesis of `C25_get_list_partial` is needed: when less than eight bytes remain
at the end of a page, the decoder reads a length beyond the page. -/
theorem C25_unaligned_page_out_of_bounds :
    Sample.query 84 2 .separate Sample.unaligned none (Sample.K 1) = .error .outOfBounds := by
  decide +kernel

/-- The other hypotheses hold for these lists. -/
example : SmallEnough 84 Sample.unaligned ∧ DistinctKeys 84 Sample.unaligned ∧
    ∀ x ∈ Sample.unaligned, x.2 ≠ [] := by decide

/-- The stash file that a previous construction may leave -/
def Sample.oldStash : Option (List UInt8) :=
  match buildStore 104 2 Sample.hash .separate Sample.lists none with
  | .error _ => none
  | .ok f => f.stash

/-- The hypothesis of `C25_get_list_partial` on the stash file is needed: when no list is stashed, the
file of a previous construction is left in place, and its values are returned. -/
theorem C25_stale_stash :
    Sample.query 104 2 .separate [(Sample.K 3, [1])] Sample.oldStash (Sample.K 3) = .ok [1, 8] := by
  decide +kernel

/-- The hypothesis on the keys is needed: of two lists under the same key, one is lost. -/
theorem C25_duplicate_key :
    Sample.query 104 2 .separate [(Sample.K 1, [1]), (Sample.K 1, [2])] none (Sample.K 1) = .ok [1] := by
  decide +kernel

/-! ## C27 -/

/-- **C27.** For every cipher, key, bucket indexes and contents: decoding encrypted buckets at their
own indexes gives what decoding the plaintext buckets gives. -/
theorem C27_decrypt_encrypt (c : Cipher) (k : Vector UInt8 32) (key : CoreKey) (i0 i1 : Nat)
    (b0 b1 : List UInt8) :
    (ValueEncoder.encrypt c k).decode key (xorStream c k i0 b0) i0 (xorStream c k i1 b1) i1 =
      ValueEncoder.separate.decode key b0 i0 b1 i1 := by
  simp only [ValueEncoder.decode, xorStream_xorStream]

/-- **C27**, for the files: the encrypting builder writes, at each index, the encryption of the page
that the plain builder writes, and the same stash. -/
theorem C27_encrypted_files (page n : Nat) (hash : CoreKey → UInt64 × UInt64) (c : Cipher)
    (k : Vector UInt8 32) (ins : List (CoreKey × List Index)) (old : Option (List UInt8)) (hn : 2 ≤ n)
    (hs : SmallEnough page ins) :
    ∃ plain sealed, buildStore page n hash .separate ins old = .ok plain ∧
      buildStore page n hash (.encrypt c k) ins old = .ok sealed ∧ sealed.stash = plain.stash ∧
      sealed.table = plain.table.mapIdx (fun v p => xorStream c k v p) := by
  obtain ⟨recs, cs, b0, hb0, -, -, -, -, hbuild⟩ := build_spec hash hn ins hs
  have h1 : ∀ enc, buildStore page n hash enc ins old = (b0.insertAll ins).build enc old := by
    intro enc; unfold buildStore; rw [hb0]
  refine ⟨_, _, (h1 _).trans (hbuild _ old), (h1 _).trans (hbuild _ old), rfl, ?_⟩
  apply List.ext_getElem?
  intro v
  simp only [List.getElem?_mapIdx, List.getElem?_map]
  by_cases hv : v < n
  · rw [List.getElem?_range hv]; rfl
  · rw [List.getElem?_eq_none (by simpa using hv)]; rfl

/-- With the cipher of the examples, the encrypted page differs from the plain one, and the lists are
found again. -/
example : Sample.query 104 2 (.encrypt Sample.cipher Sample.key) Sample.lists none (Sample.K 3) =
    .ok [9, 10, 11, 12, 8] ∧ xorStream Sample.cipher Sample.key 1 [1, 2, 3] ≠ [1, 2, 3] := by
  decide +kernel

/-! ## C29 -/

/-- What remains of a list once `a1` entries are assigned to one bucket and `a0` to the other, three
of them being used for the length and the key: its values between the first `a1 - 3` and the last
`a0 - 3`. -/
def Spec.remaining (vals : List Index) (a1 a0 : Nat) : List Index :=
  (vals.take (vals.length - min (a0 - 3) vals.length)).drop (min (a1 - 3) vals.length)

/-- **C29.** A file made of key-value pairs with distinct keys, as written by `serialize_key_value`,
reads back as exactly these pairs. Nothing is written for a list of which nothing remains. -/
theorem C29_stash_round_trip (rs : List ((CoreKey × List Index) × AssignInfo))
    (hlen : ∀ r ∈ rs, r.2.listLength.toNat = r.1.2.length + 6)
    (hsp : ∀ r ∈ rs, r.2.assigned.toNat + r.2.dual.toNat ≤ r.1.2.length + 6)
    (hd : (rs.map (fun r => r.1.1)).Nodup) :
    ∃ (bytes : List (List UInt8)) (m : Map CoreKey (List Index)), rs.map (fun r => serializeKV r.1.1 r.1.2 r.2) = bytes.map .ok ∧
      loadStash (some bytes.flatten) = .ok m ∧
      (∀ r ∈ rs, m r.1.1 =
        if Spec.remaining r.1.2 r.2.assigned.toNat r.2.dual.toNat = [] then none
        else some (Spec.remaining r.1.2 r.2.assigned.toNat r.2.dual.toNat)) ∧
      ∀ key, (∀ r ∈ rs, r.1.1 ≠ key) → m key = none := by
  have hsp' : ∀ r ∈ rs.map (fun r => Placed.mk r.1.1 r.1.2 r.2.dual.toNat r.2.assigned.toNat),
      r.a0 + r.a1 ≤ r.vals.length + 6 := by
    intro r hr
    obtain ⟨x, hx, rfl⟩ := List.mem_map.mp hr
    have := hsp x hx
    simp only
    omega
  obtain ⟨m, h1, -, h2, h3⟩ := loadPairs_spec
    (rs.map (fun r => Placed.mk r.1.1 r.1.2 r.2.dual.toNat r.2.assigned.toNat)) hsp'
    (by
      intro r hr
      obtain ⟨x, hx, rfl⟩ := List.mem_map.mp hr
      have := hlen x hx
      have := x.2.listLength.toNat_lt
      simp only
      omega)
    (by rw [List.map_map]; exact hd)
  rw [← allBytes_pairs] at h1
  refine ⟨(rs.map (fun r => Placed.mk r.1.1 r.1.2 r.2.dual.toNat r.2.assigned.toNat)).map
    Placed.stashBytes, m, ?_, ?_, ?_, ?_⟩
  · rw [List.map_map, List.map_map]
    apply List.map_congr_left
    intro r hr
    exact serializeKV_spec r.1 r.2 (hlen r hr) _ rfl (hsp' _ (List.mem_map.mpr ⟨r, hr, rfl⟩))
  · rw [← h1, List.flatMap_def]
  · intro r hr
    exact h2 _ (List.mem_map.mpr ⟨r, hr, rfl⟩)
  · intro key hk
    apply h3
    intro r hr
    obtain ⟨x, hx, rfl⟩ := List.mem_map.mp hr
    exact hk x hx

/-- The hypotheses hold for two concrete lists, the second one of which has nothing remaining. -/
example :
    let rs : List ((CoreKey × List Index) × AssignInfo) :=
      [((Sample.K 1, [1, 2, 3, 4]), ⟨10, 4, 4, .incoming⟩), ((Sample.K 2, [5]), ⟨7, 4, 3, .incoming⟩)]
    (∀ r ∈ rs, r.2.listLength.toNat = r.1.2.length + 6) ∧
    (∀ r ∈ rs, r.2.assigned.toNat + r.2.dual.toNat ≤ r.1.2.length + 6) ∧
    (rs.map (fun r => r.1.1)).Nodup ∧ Spec.remaining [1, 2, 3, 4] 4 4 = [2, 3] ∧
    Spec.remaining [5] 4 3 = [] := by decide

/-- **C29**, for the store builder: in the opened store, the stash of a key is what the two buckets of
the key do not hold, and there is nothing else in the stash. -/
theorem C29_builder_stash (page n : Nat) (hash : CoreKey → UInt64 × UInt64) (enc : ValueEncoder)
    (ins : List (CoreKey × List Index)) (hn : 2 ≤ n) (hp : 8 ∣ page) (hp63 : page < 2 ^ 63)
    (hs : SmallEnough page ins) (hd : DistinctKeys page ins) :
    ∃ st, openStore page n hash enc ins none = .ok st ∧
      (∀ x ∈ ins, x.2.length + 6 ≤ page / 8 → ∃ a0 a1, a0 + a1 ≤ x.2.length + 6 ∧
        st.stash x.1 = (if Spec.remaining x.2 a1 a0 = [] then none else some (Spec.remaining x.2 a1 a0)) ∧
        ((∀ y ∈ ins, y.2 ≠ []) → ∃ p, st.getBuckets x.1 = .ok p ∧
          enc.decode x.1 p.b0 p.i0 p.b1 p.i1 =
            .ok (x.2.drop (x.2.length - min (a0 - 3) x.2.length) ++ x.2.take (min (a1 - 3) x.2.length)))) ∧
      ∀ key, (∀ x ∈ ins, x.2.length + 6 ≤ page / 8 → x.1 ≠ key) → st.stash key = none := by
  obtain ⟨recs, cs, b0, hb0, hrecs, hsp, hsize, hcs, hbuild⟩ := build_spec hash hn ins hs
  have hkeys : recs.map Placed.key = (ins.filter (fits page)).map Prod.fst := by
    rw [← hrecs, List.map_map]; rfl
  have hd' : (recs.map Placed.key).Nodup := by rw [hkeys]; exact hd
  have hmem : ∀ r ∈ recs, (r.key, r.vals) ∈ ins ∧ fits page (r.key, r.vals) = true := by
    intro r hr
    have : (r.key, r.vals) ∈ ins.filter (fits page) := by
      rw [← hrecs]; exact List.mem_map.mpr ⟨r, hr, rfl⟩
    exact List.mem_filter.mp this
  have hlen : ∀ r ∈ recs, r.vals.length < 2 ^ 64 := by
    intro r hr
    have := of_decide_eq_true (hmem r hr).2
    simp only at this
    omega
  obtain ⟨m, hm, hm1, hm2⟩ := loadStash_spec recs hsp hlen hd'
  obtain ⟨hl1, hl2⟩ := lookup_spec hash hn recs cs hd' hcs
  refine ⟨⟨(List.range n).map (fun v => enc.seal v (pageOf page (cs v))), hash, m⟩, ?_, ?_, ?_⟩
  · unfold openStore buildStore
    rw [hb0]
    simp only
    rw [hbuild enc none]
    simp only [Store.open]
    rw [hm]
  · intro x hx hfx
    have hxr : x ∈ recs.map (fun r => (r.key, r.vals)) := by
      rw [hrecs]; exact List.mem_filter.mpr ⟨hx, decide_eq_true hfx⟩
    obtain ⟨r, hr, rfl⟩ := List.mem_map.mp hxr
    refine ⟨r.a0, r.a1, hsp r hr, hm1 r hr, fun hne => ?_⟩
    refine ⟨_, getBuckets_spec hash hn enc cs m r.key, ?_⟩
    obtain ⟨-, -, h⟩ := hl1 r hr
    obtain ⟨h0, h1⟩ := h (fun r hr => hne _ (hmem r hr).1)
    simp only
    rw [decode_pages hash hn hp hp63 enc cs hsize, h0, h1]
    rfl
  · intro key hk
    exact hm2 key (fun r hr => hk _ (hmem r hr).1 (of_decide_eq_true (hmem r hr).2))

/-- In the concrete store, the third list has one value in the stash. -/
example : Sample.oldStash = some ((Sample.K 3).toList ++ leBytes 8 1 ++ indexBytes 8) := by
  decide +kernel

end Verif.Tethys
