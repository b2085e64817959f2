import Verif.Pluto.Props
import Verif.Tethys.HidingProps
import Verif.Oceanus.Props

/-!
# C61: what the server stores reveals only sizes (Pluto, cuckoo tables)

The Tethys part of Pluto hides the index as that of Tethys (`C61_pluto_tethys_hiding`). The number of blocks of the hash table
depends only on the announced number of elements (`C61_pluto_blocks_partial`; `C30_empty_index_wraps` for zero elements),
and so does the size of a cuckoo table (`C61_cuckoo_size`). But the full blocks are stored in clear
(`C61_pluto_clear_violated`), and the dummy blocks contain zeros: the number of full blocks, which they should hide
(pluto_builder.hpp L92-94), can be read in the table (`C61_pluto_count_violated`).
-/

namespace Verif.Pluto

open Tethys (CoreKey Token deriveCoreKey ValueEncoder Cipher xorStream)

variable {N : Nat}

/-! ## The Tethys part -/

theorem insertLoop_store {ht : HashTable N} {L : Nat} {key : Nat → CoreKey} (ids : List Index) :
    ∀ (block : List Index) (c : Nat) (b b' : Builder ht) (last : List Index),
      insertLoop ht L key ids block c b = .ok (b', last) → b'.store = b.store := by
  induction ids with
  | nil => intro block c b b' last h; cases h; rfl
  | cons id ids ih =>
    intro block c b b' last h
    unfold insertLoop at h
    dsimp only at h
    by_cases hl : (block ++ [id]).length = L
    · rw [if_pos hl] at h
      cases hi : ht.insert b.table (key c) (padded N (block ++ [id])) with
      | error f => rw [hi] at h; cases h
      | ok t =>
        rw [hi] at h
        exact ih _ _ ⟨b.store, t, b.complete + 1⟩ _ _ h
    · rw [if_neg hl] at h
      exact ih _ _ _ _ _ h

theorem insertList_dims {W : Type} {ht : HashTable N} {L : Nat} {prf : W → Token} {H : List UInt8 → CoreKey}
    {b b' : Builder ht} {w : W} {ids : List Index} (h : b.insertList L prf H w ids = .ok b') :
    b'.store.page = b.store.page ∧ b'.store.size = b.store.size := by
  unfold Builder.insertList at h
  dsimp only at h
  cases hi : insertLoop ht L (deriveCoreKey H (prf w)) ids [] 1 b with
  | error f => rw [hi] at h; cases h
  | ok x =>
    obtain ⟨b1, block⟩ := x
    rw [hi] at h
    have hs := insertLoop_store _ _ _ _ _ _ hi
    dsimp only at h
    by_cases hl : block.length > 0
    · rw [if_pos hl] at h
      have hd := Tethys.insertList_dims b1.store (deriveCoreKey H (prf w) 0) block
      cases hr : b1.store.insertList (deriveCoreKey H (prf w) 0) block with
      | mk s r =>
        rw [hr] at h hd
        cases r with
        | error f => cases h
        | ok u => cases h; rw [← hs]; exact hd
    · rw [if_neg hl] at h
      cases h
      rw [hs]
      exact ⟨rfl, rfl⟩

theorem insertIndex_dims {W : Type} {ht : HashTable N} {L : Nat} {prf : W → Token} {H : List UInt8 → CoreKey}
    (index : List (W × List Index)) : ∀ {b b' : Builder ht}, b.insertIndex L prf H index = .ok b' →
      b'.store.page = b.store.page ∧ b'.store.size = b.store.size := by
  induction index with
  | nil => intro b b' h; cases h; exact ⟨rfl, rfl⟩
  | cons x xs ih =>
    intro b b' h
    unfold Builder.insertIndex at h
    cases hr : b.insertList L prf H x.1 x.2 with
    | error f => rw [hr] at h; cases h
    | ok b1 =>
      rw [hr] at h
      have hd := insertList_dims hr
      have he := ih h
      exact ⟨he.1.trans hd.1, he.2.trans hd.2⟩

/-- The construction with encryption is the construction without, with the pages encrypted. -/
theorem schemeBuild_encrypt {W : Type} (ht : HashTable N) (page size L : Nat) (hash : CoreKey → UInt64 × UInt64)
    (prf : W → Token) (H : List UInt8 → CoreKey) (c : Cipher) (k : Vector UInt8 32) (n : UInt64) (rand : Nat → CoreKey)
    (index : List (W × List Index)) :
    schemeBuild ht page size L hash prf H (.encrypt c k) n rand index =
      (schemeBuild ht page size L hash prf H .separate n rand index).map
        (fun x => (x.1, ⟨List.zipWith (xorStream c k) (List.range size) x.2.table, x.2.stash⟩)) := by
  unfold schemeBuild
  cases hb : Tethys.Builder.new page size hash with
  | error f => rfl
  | ok s =>
    simp only
    cases hi : (Builder.mk s ht.new 0 : Builder ht).insertIndex L prf H index with
    | error f => rfl
    | ok b =>
      have hd : b.store.size = size := (insertIndex_dims index hi).2.trans (Tethys.new_dims hb).2
      simp only
      unfold Builder.build
      simp only
      cases addDummies ht ((List.range' b.complete ((nFullBlocks L n).toNat - b.complete)).map rand) b.table with
      | error f => rfl
      | ok t =>
        simp only
        cases ht.commit t with
        | error f => rfl
        | ok t =>
          simp only
          rw [Tethys.build_encrypt, hd]
          cases b.store.build .separate none with
          | error f => rfl
          | ok fs => rfl

theorem schemeBuild_length {W : Type} {ht : HashTable N} {page size L : Nat} {hash : CoreKey → UInt64 × UInt64}
    {prf : W → Token} {H : List UInt8 → CoreKey} {n : UInt64} {rand : Nat → CoreKey} {index : List (W × List Index)}
    {r : ht.T × Tethys.Files} (h : schemeBuild ht page size L hash prf H .separate n rand index = .ok r) :
    r.2.table.length = size ∧ ∀ p ∈ r.2.table, p.length = page := by
  unfold schemeBuild at h
  cases hb : Tethys.Builder.new page size hash with
  | error f => rw [hb] at h; cases h
  | ok s =>
    rw [hb] at h
    simp only at h
    cases hi : (Builder.mk s ht.new 0 : Builder ht).insertIndex L prf H index with
    | error f => rw [hi] at h; cases h
    | ok b =>
      rw [hi] at h
      have hd := insertIndex_dims index hi
      have hn := Tethys.new_dims hb
      simp only at h
      unfold Builder.build at h
      simp only at h
      cases ha : addDummies ht ((List.range' b.complete ((nFullBlocks L n).toNat - b.complete)).map rand) b.table with
      | error f => rw [ha] at h; cases h
      | ok t =>
        rw [ha] at h
        simp only at h
        cases hc : ht.commit t with
        | error f => rw [hc] at h; cases h
        | ok t' =>
          rw [hc] at h
          simp only at h
          cases hs : b.store.build .separate none with
          | error f => rw [hs] at h; cases h
          | ok fs =>
            rw [hs] at h
            cases h
            obtain ⟨h1, h2⟩ := Tethys.build_length hs
            exact ⟨h1.trans (hd.2.trans hn.2), fun p hp => (h2 p hp).trans (hd.1.trans hn.1)⟩

/-- **C61**: the Tethys table of Pluto, with any hash table, for two indexes for which the construction succeeds: there is a
permutation of the keystreams, which changes only the bytes used, such that the Tethys tables are the same; and its size depends
only on the parameters. -/
theorem C61_pluto_tethys_hiding {W W' : Type} {ht : HashTable N} (page size L : Nat) (k : Vector UInt8 32)
    (hash hash' : CoreKey → UInt64 × UInt64) (prf : W → Token) (prf' : W' → Token) (H H' : List UInt8 → CoreKey)
    (n n' : UInt64) (rand rand' : Nat → CoreKey) (index : List (W × List Index)) (index' : List (W' × List Index))
    (c0 c0' : Cipher)
    (h : ∃ r, schemeBuild ht page size L hash prf H (.encrypt c0 k) n rand index = .ok r)
    (h' : ∃ r, schemeBuild ht page size L hash' prf' H' (.encrypt c0' k) n' rand' index' = .ok r) :
    ∃ φ : Cipher → Cipher, Function.Bijective φ ∧
      (∀ c k' v i, k' ≠ k ∨ size ≤ v ∨ page ≤ i → φ c k' v i = c k' v i) ∧
      ∀ c, ∃ t fs t' fs',
        schemeBuild ht page size L hash prf H (.encrypt (φ c) k) n rand index = .ok (t, fs) ∧
        schemeBuild ht page size L hash' prf' H' (.encrypt c k) n' rand' index' = .ok (t', fs') ∧
        fs.table = fs'.table ∧ fs.table.length = size := by
  obtain ⟨r, h⟩ := h
  obtain ⟨r', h'⟩ := h'
  rw [schemeBuild_encrypt] at h h'
  cases hp : schemeBuild ht page size L hash prf H .separate n rand index with
  | error f => rw [hp] at h; cases h
  | ok p =>
    cases hp' : schemeBuild ht page size L hash' prf' H' .separate n' rand' index' with
    | error f => rw [hp'] at h'; cases h'
    | ok p' =>
      obtain ⟨l1, l2⟩ := schemeBuild_length hp
      obtain ⟨l1', l2'⟩ := schemeBuild_length hp'
      refine ⟨Tethys.shift k p.2.table p'.2.table, Tethys.shift_bijective _ _ _, ?_, ?_⟩
      · intro c k' v i ho
        unfold Tethys.shift
        by_cases hk : k' = k
        · rw [if_pos hk]
          have ho := ho.resolve_left (fun e => e hk)
          rw [Tethys.byteAt_out l1 l2 ho, Tethys.byteAt_out l1' l2' ho]
          simp
        · rw [if_neg hk]
      · intro c
        refine ⟨p.1, ⟨List.zipWith (xorStream (Tethys.shift k p.2.table p'.2.table c) k) (List.range size) p.2.table,
            p.2.stash⟩, p'.1, ⟨List.zipWith (xorStream c k) (List.range size) p'.2.table, p'.2.stash⟩, ?_, ?_, ?_, ?_⟩
        · rw [schemeBuild_encrypt, hp]; rfl
        · rw [schemeBuild_encrypt, hp']; rfl
        · exact Tethys.xor_shift c l1 l2 l1' l2'
        · simp [l1]

/-! ## The hash table -/

/-- The first block of a long list -/
theorem fullBlocks_head {L : Nat} (key : Nat → CoreKey) (ids : List Index) : ∀ (block : List Index) (c : Nat),
    block.length < L → L ≤ block.length + ids.length →
    (key c, padded N ((block ++ ids).take L)) ∈ fullBlocks N L key ids block c := by
  induction ids with
  | nil => intro block c h1 h2; simp at h2; omega
  | cons id ids ih =>
    intro block c h1 h2
    unfold fullBlocks
    rw [show block ++ id :: ids = (block ++ [id]) ++ ids by simp]
    by_cases hl : (block ++ [id]).length = L
    · rw [if_pos hl, List.take_left' hl]
      exact List.mem_cons_self
    · rw [if_neg hl]
      rw [List.length_append, List.length_singleton] at hl
      rw [List.length_cons] at h2
      exact ih (block ++ [id]) c (by rw [List.length_append, List.length_singleton]; omega)
        (by rw [List.length_append, List.length_singleton]; omega)

/-- What a full block contains -/
theorem fullBlocks_mem {L : Nat} (key : Nat → CoreKey) (ids : List Index) : ∀ (block : List Index) (c : Nat),
    ∀ x ∈ fullBlocks N L key ids block c, ∃ l : List Index, l.length = L ∧ x.2 = padded N l ∧
      ∀ d ∈ l, d ∈ block ∨ d ∈ ids := by
  induction ids with
  | nil => intro block c x hx; cases hx
  | cons id ids ih =>
    intro block c x hx
    unfold fullBlocks at hx
    by_cases hl : (block ++ [id]).length = L
    · rw [if_pos hl] at hx
      rcases List.mem_cons.mp hx with rfl | hx
      · refine ⟨block ++ [id], hl, rfl, ?_⟩
        intro d hd
        rcases List.mem_append.mp hd with hd | hd
        · exact .inl hd
        · rw [List.mem_singleton.mp hd]; exact .inr List.mem_cons_self
      · obtain ⟨l, h1, h2, h3⟩ := ih _ _ x hx
        refine ⟨l, h1, h2, fun d hd => ?_⟩
        rcases h3 d hd with h | h
        · cases h
        · exact .inr (List.mem_cons_of_mem _ h)
    · rw [if_neg hl] at hx
      obtain ⟨l, h1, h2, h3⟩ := ih _ _ x hx
      refine ⟨l, h1, h2, fun d hd => ?_⟩
      rcases h3 d hd with h | h
      · rcases List.mem_append.mp h with h | h
        · exact .inl h
        · rw [List.mem_singleton.mp h]; exact .inr List.mem_cons_self
      · exact .inr (List.mem_cons_of_mem _ h)

/-- The content of the RocksDB database -/
theorem rocksdb_content {W : Type} (page size : Nat) (hash : CoreKey → UInt64 × UInt64) (prf : W → Token)
    (H : List UInt8 → CoreKey) (enc : ValueEncoder) (n : UInt64) (rand : Nat → CoreKey) (index : List (W × List Index))
    (hok : Spec.IndexOk page size prf H n rand index) :
    ∃ t fs, schemeBuild (rocksdb (tethysLength page)) page size (tethysLength page) hash prf H enc n rand index =
        .ok (t, fs) ∧
      (∀ x ∈ entriesOf (tethysLength page) page prf H n rand index, t x.1 = some x.2) ∧
      ∀ k, (∀ x ∈ entriesOf (tethysLength page) page prf H n rand index, x.1 ≠ k) → t k = none := by
  obtain ⟨b, t, hins, hcommit, hlook⟩ := rocksdb_looks (entriesOf (tethysLength page) page prf H n rand index)
    (nodup_entries hok)
  obtain ⟨fs, h1, -⟩ := search_spec _ hash enc hok (Nat.le_refl _) _ hins hcommit hlook
  refine ⟨t, fs, h1, ?_, ?_⟩
  · intro x hx
    have h := hlook.1 x hx
    cases ht : t x.1 with
    | none => simp [ht] at h
    | some v => simp [ht] at h; rw [h]
  · intro k hk
    have h := hlook.2 k hk trivial
    cases ht : t k with
    | none => rfl
    | some v => simp [ht] at h

/-- **C61** (partial): the number of blocks in the database of Pluto, with the RocksDB parameters, is a function of the number of
elements announced, if the index has no more; missing: what the blocks contain (see the violations). -/
theorem C61_pluto_blocks_partial {W : Type} (page size : Nat) (hash : CoreKey → UInt64 × UInt64) (prf : W → Token)
    (H : List UInt8 → CoreKey) (enc : ValueEncoder) (n : UInt64) (rand : Nat → CoreKey) (index : List (W × List Index))
    (hok : Spec.IndexOk page size prf H n rand index) (hn : 0 < n.toNat)
    (hsum : (index.map (fun x => x.2.length)).sum ≤ n.toNat) :
    ∃ t fs, schemeBuild (rocksdb (tethysLength page)) page size (tethysLength page) hash prf H enc n rand index =
        .ok (t, fs) ∧
      ∃ keys : List CoreKey, keys.Nodup ∧ (∀ k, (t k).isSome = true ↔ k ∈ keys) ∧
        keys.length = 1 + (n.toNat - 1) / (page / 8 - 6) := by
  obtain ⟨t, fs, h1, h2, h3⟩ := rocksdb_content page size hash prf H enc n rand index hok
  refine ⟨t, fs, h1, (entriesOf (tethysLength page) page prf H n rand index).map Prod.fst, nodup_entries hok, ?_, ?_⟩
  · intro k
    constructor
    · intro hk
      by_contra hne
      rw [h3 k (fun x hx e => hne (List.mem_map.mpr ⟨x, hx, e⟩))] at hk
      cases hk
    · intro hk
      obtain ⟨x, hx, rfl⟩ := List.mem_map.mp hk
      rw [h2 x hx]
      rfl
  · have hm : 0 < page / 8 - 6 := by have := hok.room; omega
    have hL : (UInt64.ofNat (page / 8 - 6)).toNat = page / 8 - 6 := by
      rw [UInt64.toNat_ofNat']
      exact Nat.mod_eq_of_lt (by have := hok.small; omega)
    have hnf : (nFullBlocks (page / 8 - 6) n).toNat = 1 + (n.toNat - 1) / (page / 8 - 6) := by
      unfold nFullBlocks
      rw [UInt64.toNat_add, UInt64.toNat_div, hL, UInt64.toNat_sub_of_le _ _ (by
        rw [UInt64.le_iff_toNat_le]; exact hn)]
      have h1 : (1 : UInt64).toNat = 1 := rfl
      rw [h1]
      have hlt := n.toNat_lt
      have := Nat.div_le_self (n.toNat - 1) (page / 8 - 6)
      exact Nat.mod_eq_of_lt (by omega)
    have hfull : Spec.fullCount (page / 8 - 6) index ≤ 1 + (n.toNat - 1) / (page / 8 - 6) := by
      have hle : Spec.fullCount (page / 8 - 6) index * (page / 8 - 6) ≤ (index.map (fun x => x.2.length)).sum := by
        unfold Spec.fullCount
        generalize index = l
        induction l with
        | nil => simp
        | cons x l ih =>
          simp only [List.map_cons, List.sum_cons]
          rw [Nat.add_mul]
          have := Nat.div_mul_le_self x.2.length (page / 8 - 6)
          omega
      have h4 : Spec.fullCount (page / 8 - 6) index ≤ n.toNat / (page / 8 - 6) :=
        (Nat.le_div_iff_mul_le hm).mpr (Nat.le_trans hle hsum)
      have h5 : n.toNat / (page / 8 - 6) ≤ (n.toNat - 1 + (page / 8 - 6)) / (page / 8 - 6) :=
        Nat.div_le_div_right (by omega)
      rw [Nat.add_div_right _ hm] at h5
      omega
    unfold entriesOf
    rw [List.length_map, List.length_append, length_tableEntries hok, List.length_map]
    unfold Spec.dummies
    rw [List.length_map, List.length_range', hnf]
    omega

/-- **C61** (violated): the first block of each list with a full block is in the database in clear, whatever the keys. -/
theorem C61_pluto_clear_violated {W : Type} (page size : Nat) (hash : CoreKey → UInt64 × UInt64) (prf : W → Token)
    (H : List UInt8 → CoreKey) (enc : ValueEncoder) (n : UInt64) (rand : Nat → CoreKey) (index : List (W × List Index))
    (hok : Spec.IndexOk page size prf H n rand index) :
    ∃ t fs, schemeBuild (rocksdb (tethysLength page)) page size (tethysLength page) hash prf H enc n rand index =
        .ok (t, fs) ∧
      ∀ x ∈ index, page / 8 - 6 ≤ x.2.length → ∃ k v, t k = some v ∧ v.toList = x.2.take (page / 8 - 6) := by
  obtain ⟨t, fs, h1, h2, -⟩ := rocksdb_content page size hash prf H enc n rand index hok
  refine ⟨t, fs, h1, ?_⟩
  intro x hx hl
  have hm : 0 < page / 8 - 6 := by have := hok.room; omega
  have hmem := fullBlocks_head (N := tethysLength page) (keyOf prf H x.1) x.2 [] 1 hm (by simpa using hl)
  refine ⟨_, _, h2 _ (List.mem_append_left _ (List.mem_flatMap.mpr ⟨x, hx, hmem⟩)), ?_⟩
  rw [padded_toList (by rw [List.length_take, List.nil_append]; exact Nat.min_le_left _ _)]
  rw [List.nil_append, List.length_take, Nat.min_eq_left hl]
  simp [tethysLength]

/-- **C61** (violated): the dummy blocks contain zeros. If no document has the number zero, the blocks that contain something
else are the full blocks: the server can count them. -/
theorem C61_pluto_count_violated {W : Type} (page size : Nat) (hash : CoreKey → UInt64 × UInt64) (prf : W → Token)
    (H : List UInt8 → CoreKey) (enc : ValueEncoder) (n : UInt64) (rand : Nat → CoreKey) (index : List (W × List Index))
    (hok : Spec.IndexOk page size prf H n rand index) (hz : ∀ x ∈ index, (0 : Index) ∉ x.2) :
    ∃ t fs, schemeBuild (rocksdb (tethysLength page)) page size (tethysLength page) hash prf H enc n rand index =
        .ok (t, fs) ∧
      ∃ keys : List CoreKey, keys.Nodup ∧
        (∀ k, (∃ v, t k = some v ∧ v ≠ Vector.replicate (tethysLength page) 0) ↔ k ∈ keys) ∧
        keys.length = (index.map (fun x => x.2.length / (page / 8 - 6))).sum := by
  obtain ⟨t, fs, h1, h2, h3⟩ := rocksdb_content page size hash prf H enc n rand index hok
  have hm : 0 < page / 8 - 6 := by have := hok.room; omega
  have hnd := nodup_entries (N := tethysLength page) hok
  unfold entriesOf at hnd h2 h3
  rw [List.map_append] at hnd
  refine ⟨t, fs, h1, (tableEntries (tethysLength page) (page / 8 - 6) prf H index).map Prod.fst,
    (List.nodup_append.mp hnd).1, ?_, ?_⟩
  · intro k
    constructor
    · rintro ⟨v, hv, hne⟩
      by_contra hnot
      by_cases hd : k ∈ Spec.dummies (page / 8 - 6) n rand index
      · have := h2 (k, padded _ []) (List.mem_append_right _ (List.mem_map.mpr ⟨k, hd, rfl⟩))
        rw [hv] at this
        rw [Option.some.inj this] at hne
        apply hne
        apply Vector.ext
        intro i hi
        simp [padded]
      · rw [h3 k (by
          intro x hx e
          rcases List.mem_append.mp hx with hx | hx
          · exact hnot (List.mem_map.mpr ⟨x, hx, e⟩)
          · obtain ⟨k', hk', rfl⟩ := List.mem_map.mp hx
            simp only at e
            rw [e] at hk'
            exact hd hk')] at hv
        cases hv
    · intro hk
      obtain ⟨x, hx, rfl⟩ := List.mem_map.mp hk
      refine ⟨x.2, h2 x (List.mem_append_left _ hx), ?_⟩
      obtain ⟨y, hy, hxy⟩ := List.mem_flatMap.mp hx
      obtain ⟨l, hl, hpad, hmem⟩ := fullBlocks_mem _ _ _ _ x hxy
      intro e
      rw [hpad] at e
      have hlist := congrArg Vector.toList e
      rw [padded_toList (by rw [hl]; exact Nat.le_refl _), hl] at hlist
      rw [show tethysLength page - (page / 8 - 6) = 0 by unfold tethysLength; omega, List.replicate_zero, List.append_nil,
        Vector.toList_replicate] at hlist
      have h0 : (0 : Index) ∈ l := by
        rw [hlist]
        exact List.mem_replicate.mpr ⟨by unfold tethysLength; omega, rfl⟩
      rcases hmem 0 h0 with h | h
      · cases h
      · exact hz y hy h
  · rw [List.length_map, length_tableEntries hok]
    rfl

/-- **C61**: a cuckoo table has `2 * size` cells, whatever was inserted. -/
theorem C61_cuckoo_size {n : Nat} (size depth : Nat) (hash : Oceanus.Key → Oceanus.CKey)
    (kvs : List (Oceanus.Key × Vector UInt8 n)) (b : Oceanus.Builder n) (file : List (Oceanus.Payload n))
    (h : (Oceanus.Builder.new n size depth hash).insertAll kvs = .ok b) (hc : b.commit = .ok file) :
    file.length = 2 * size := by
  have hloop : ∀ (d : Nat) (a a' : Oceanus.Alloc) (v v' : Oceanus.Cell) (t : Bool),
      a.insertLoop v t d = .ok (a', v') → a'.t0.length = a.t0.length ∧ a'.t1.length = a.t1.length := by
    intro d
    induction d with
    | zero => intro a a' v v' t h; cases h; exact ⟨rfl, rfl⟩
    | succ d ih =>
      intro a a' v v' t h
      unfold Oceanus.Alloc.insertLoop at h
      by_cases hf : v.full = false
      · rw [if_pos hf] at h; cases h; exact ⟨rfl, rfl⟩
      · rw [if_neg hf] at h
        by_cases hz : a.size = 0
        · rw [if_pos hz] at h; cases h
        · rw [if_neg hz] at h
          dsimp only at h
          cases ho : (a.table t)[(v.key.h t).toNat % a.size]? with
          | none => rw [ho] at h; cases h
          | some old =>
            rw [ho] at h
            obtain ⟨h1, h2⟩ := ih _ _ _ _ _ h
            rw [h1, h2]
            unfold Oceanus.Alloc.put
            cases t <;> simp
  have hins : ∀ (kvs : List (Oceanus.Key × Vector UInt8 n)) (b b' : Oceanus.Builder n), b.insertAll kvs = .ok b' →
      b'.alloc.t0.length = b.alloc.t0.length ∧ b'.alloc.t1.length = b.alloc.t1.length := by
    intro kvs
    induction kvs with
    | nil => intro b b' h; cases h; exact ⟨rfl, rfl⟩
    | cons x xs ih =>
      intro b b' h
      unfold Oceanus.Builder.insertAll at h
      cases hi : b.insert x.1 x.2 with
      | error f => rw [hi] at h; cases h
      | ok b1 =>
        rw [hi] at h
        obtain ⟨h1, h2⟩ := ih _ _ h
        unfold Oceanus.Builder.insert at hi
        by_cases hcm : b.committed = true
        · rw [if_pos hcm] at hi; cases hi
        · rw [if_neg hcm] at hi
          dsimp only at hi
          cases ha : b.alloc.insert (b.hash x.1) (UInt64.ofNat b.data.length) with
          | error f => rw [ha] at hi; cases hi
          | ok r =>
            obtain ⟨a, sp⟩ := r
            rw [ha] at hi
            cases hi
            unfold Oceanus.Alloc.insert at ha
            by_cases he : UInt64.ofNat b.data.length = Oceanus.emptyIndex
            · rw [if_pos he] at ha; cases ha
            · rw [if_neg he] at ha
              cases hl : b.alloc.insertLoop ⟨b.hash x.1, UInt64.ofNat b.data.length⟩ false b.alloc.depth with
              | error f => rw [hl] at ha; cases ha
              | ok q =>
                rw [hl] at ha
                cases ha
                obtain ⟨h3, h4⟩ := hloop _ _ _ _ _ _ hl
                exact ⟨h1.trans h3, h2.trans h4⟩
  have hwrite : ∀ (data : List (Oceanus.Payload n)) (cs : List Oceanus.Cell) (ps : List (Oceanus.Payload n)),
      Oceanus.writeTable data cs = .ok ps → ps.length = cs.length := by
    intro data cs
    induction cs with
    | nil => intro ps h; cases h; rfl
    | cons c cs ih =>
      intro ps h
      unfold Oceanus.writeTable at h
      generalize (if c.full = false then some (Vector.replicate (16 + n) 255) else data[c.index.toNat]?) = o at h
      cases o with
      | none => cases h
      | some p =>
        simp only at h
        cases hw : Oceanus.writeTable data cs with
        | error f => rw [hw] at h; cases h
        | ok qs => rw [hw] at h; cases h; rw [List.length_cons, List.length_cons, ih qs hw]
  obtain ⟨h1, h2⟩ := hins _ _ _ h
  rw [hwrite _ _ _ hc, List.length_append, h1, h2]
  simp only [Oceanus.Builder.new, Oceanus.Alloc.new, List.length_replicate]
  omega

/-! ## Examples -/

/-- The index of the examples has 17 documents: three blocks, two of them full, whatever the cipher. -/
example (enc : ValueEncoder) : ∃ t fs, schemeBuild (rocksdb 7) 104 2 7 Tethys.Sample.hash Tethys.Sample.prf Tethys.Sample.H enc
      17 Sample.rand Sample.index = .ok (t, fs) ∧
    ∃ keys : List CoreKey, keys.Nodup ∧ (∀ k, (t k).isSome = true ↔ k ∈ keys) ∧ keys.length = 3 :=
  C61_pluto_blocks_partial 104 2 _ _ _ enc 17 _ Sample.index sample_index_ok (by decide) (by decide)

example (enc : ValueEncoder) : ∃ t fs, schemeBuild (rocksdb 7) 104 2 7 Tethys.Sample.hash Tethys.Sample.prf Tethys.Sample.H enc
      17 Sample.rand Sample.index = .ok (t, fs) ∧
    ∃ keys : List CoreKey, keys.Nodup ∧ (∀ k, (∃ v, t k = some v ∧ v ≠ Vector.replicate 7 0) ↔ k ∈ keys) ∧
      keys.length = 2 :=
  C61_pluto_count_violated 104 2 _ _ _ enc 17 _ Sample.index sample_index_ok (by decide)

example (enc : ValueEncoder) : ∃ t fs, schemeBuild (rocksdb 7) 104 2 7 Tethys.Sample.hash Tethys.Sample.prf Tethys.Sample.H enc
      17 Sample.rand Sample.index = .ok (t, fs) ∧
    ∃ k v, t k = some v ∧ v.toList = [11, 12, 13, 14, 15, 16, 17] := by
  obtain ⟨t, fs, h1, h2⟩ := C61_pluto_clear_violated 104 2 Tethys.Sample.hash _ _ enc 17 _ Sample.index sample_index_ok
  exact ⟨t, fs, h1, h2 (3, [11, 12, 13, 14, 15, 16, 17]) (by decide) (by decide)⟩

/-- Two different indexes, one of 17 documents and one of 5, that meet the hypotheses of `C61_pluto_tethys_hiding` -/
example (c : Cipher) : ∃ φ : Cipher → Cipher, Function.Bijective φ ∧
    (∀ c k' v i, k' ≠ Tethys.Sample.key ∨ 2 ≤ v ∨ 104 ≤ i → φ c k' v i = c k' v i) ∧
    ∀ c, ∃ t fs t' fs',
      schemeBuild (rocksdb 7) 104 2 7 Tethys.Sample.hash Tethys.Sample.prf Tethys.Sample.H
        (.encrypt (φ c) Tethys.Sample.key) 17 Sample.rand Sample.index = .ok (t, fs) ∧
      schemeBuild (rocksdb 7) 104 2 7 Tethys.Sample.hash Tethys.Sample.prf Tethys.Sample.H
        (.encrypt c Tethys.Sample.key) 7 Sample.rand Sample.short = .ok (t', fs') ∧
      fs.table = fs'.table ∧ fs.table.length = 2 := by
  obtain ⟨t, fs, h, -⟩ := rocksdb_content 104 2 Tethys.Sample.hash _ _ (.encrypt c Tethys.Sample.key) 17 _ Sample.index
    sample_index_ok
  obtain ⟨t', fs', h', -⟩ := rocksdb_content 104 2 Tethys.Sample.hash Tethys.Sample.prf Tethys.Sample.H
    (.encrypt c Tethys.Sample.key) 7 Sample.rand Sample.short
    ⟨by decide, by decide, by decide, by decide, by decide, by decide, by decide, by decide, by decide, by decide⟩
  exact C61_pluto_tethys_hiding 104 2 7 Tethys.Sample.key _ _ _ _ _ _ _ _ _ _ _ _ c c ⟨_, h⟩ ⟨_, h'⟩

/-- Tables with one entry and with none have six cells both. -/
example : (match (Oceanus.Builder.new 2 3 5 Oceanus.oceanusHash).insertAll [(Oceanus.Sample.key 1 1, Oceanus.Sample.val 1)] with
      | .error _ => none
      | .ok b => b.commit.toOption.map List.length) = some 6 ∧
    (Oceanus.Builder.new 2 3 5 Oceanus.oceanusHash).commit.toOption.map List.length = some 6 := by decide +kernel

end Verif.Pluto
