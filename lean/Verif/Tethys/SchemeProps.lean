import Verif.Tethys.SchemeLemmas
import Verif.Tethys.KeySpec

/-!
# Properties of the Tethys scheme (C26)

The statements quantify over the page size, the table size, the hasher, the pseudo-random function, the
hash function, the encoder and the inverted index.
-/

namespace Verif.Tethys

/-! ## Hypotheses -/

/-- Number of blocks of a list of `len` indexes: full blocks of `page / 8 - 6` indexes, and one more -/
def Spec.blockCount (page len : Nat) : Nat := len / (page / 8 - 6) + 1

/-- Hypotheses on the parameters and the index: no overflow of 64-bit and 32-bit counters, distinct
tokens, and no collision of the hash function on what is hashed for the blocks of this index (never
assumed for other points) -/
structure Spec.IndexOk {W : Type} (page n : Nat) (prf : W → Token) (H : List UInt8 → CoreKey)
    (index : List (W × List Index)) : Prop where
  buckets : 2 ≤ n
  aligned : 8 ∣ page
  small : page < 2 ^ 63
  room : 6 < page / 8
  total : (index.map (fun x => x.2.length + 6 * Spec.blockCount page x.2.length)).sum + page / 8 < 2 ^ 64
  counters : ∀ x ∈ index, Spec.blockCount page x.2.length < 2 ^ 32
  tokens : (index.map (fun x => prf x.1)).Nodup
  hashes : ∀ a ∈ Spec.inputs prf (fun x => Spec.blockCount page x.2.length) index,
    ∀ b ∈ Spec.inputs prf (fun x => Spec.blockCount page x.2.length) index, H a = H b → a = b

theorem Spec.IndexOk.keywords {W : Type} {page n : Nat} {prf : W → Token} {H : List UInt8 → CoreKey}
    {index : List (W × List Index)} (h : Spec.IndexOk page n prf H index) :
    (index.map Prod.fst).Nodup := by
  have := h.tokens
  rw [show (fun x : W × List Index => prf x.1) = prf ∘ Prod.fst from rfl, ← List.map_map] at this
  exact List.Nodup.of_map prf this

theorem Spec.IndexOk.keys {W : Type} {page n : Nat} {prf : W → Token} {H : List UInt8 → CoreKey}
    {index : List (W × List Index)} (h : Spec.IndexOk page n prf H index) :
    (index.flatMap (fun x => (List.range (Spec.blockCount page x.2.length)).map
      (fun i => deriveCoreKey H (prf x.1) i))).Nodup :=
  keys_nodup prf H _ index h.tokens (fun x hx => by have := h.counters x hx; omega) h.hashes

/-! ## Concrete instance -/

namespace Sample

/-- A pseudo-random function for the examples -/
def prf (w : Nat) : Token := Vector.ofFn (fun i => if i.val = 0 then UInt8.ofNat w else 0)

/-- A hash function for the examples: it keeps a byte of the token and a byte of the counter -/
def H (l : List UInt8) : CoreKey :=
  Vector.ofFn (fun i => if i.val = 0 then l.getD 0 0 else if i.val = 8 then l.getD 16 0 else 0)

/-- An index; with pages of 104 bytes, the blocks have seven entries and the first list two blocks -/
def index : List (Nat × List Index) := [(1, [1, 2, 3, 4, 5, 6, 7, 8]), (2, [9, 10]), (5, [11])]

/-- A search after the construction -/
def search (page n : Nat) (ix : List (Nat × List Index)) (w : Nat) : Except Fault (List Index) :=
  match schemeBuild page n hash prf H (.encrypt cipher key) ix none with
  | .error f => .error f
  | .ok (fs, c) => schemeSearch hash prf H (.encrypt cipher key) fs c w

end Sample

theorem sample_index_ok : Spec.IndexOk 104 2 Sample.prf Sample.H Sample.index where
  buckets := by decide
  aligned := by decide
  small := by decide
  room := by decide
  total := by decide
  counters := by decide
  tokens := by decide
  hashes := by decide

/-! ## The theorems -/

theorem search_spec {W : Type} [DecidableEq W] (page n : Nat) (hash : CoreKey → UInt64 × UInt64)
    (prf : W → Token) (H : List UInt8 → CoreKey) (enc : ValueEncoder) (index : List (W × List Index))
    (hok : Spec.IndexOk page n prf H index) :
    ∃ fs counters, schemeBuild page n hash prf H enc index none = .ok (fs, counters) ∧
      (∀ x ∈ index, ∃ r, schemeSearch hash prf H enc fs counters x.1 = .ok r ∧ r.Subperm x.2 ∧
        ((∀ y ∈ index, y.2.length % (page / 8 - 6) ≠ 0) → r.Perm x.2)) ∧
      ∀ w, (∀ x ∈ index, x.1 ≠ w) → schemeSearch hash prf H enc fs counters w = .ok [] := by
  have hroom := hok.room
  have hm : 0 < page / 8 - 6 := by omega
  have hs : SmallEnough page (blocksOf page prf H index) := by
    unfold SmallEnough
    rw [sum_blocksOf hm]
    exact hok.total
  have hfits : ∀ y ∈ blocksOf page prf H index, y.2.length + 6 ≤ page / 8 := by
    intro y hy
    obtain ⟨x, hx, hy⟩ := List.mem_flatMap.mp hy
    have := cut_length_le hm (block := []) (ids := x.2) (by simpa using hm) _ (mem_keyed hy)
    omega
  have hfilter : (blocksOf page prf H index).filter (fits page) = blocksOf page prf H index := by
    rw [List.filter_eq_self]
    intro y hy
    exact decide_eq_true (hfits y hy)
  have hd : DistinctKeys page (blocksOf page prf H index) := by
    unfold DistinctKeys
    rw [hfilter, blocksOf_fst hm]
    exact hok.keys
  obtain ⟨st, h1, h2, h3⟩ := getList_spec page n hash enc (blocksOf page prf H index) hok.buckets
    hok.aligned hok.small hs hd
  unfold openStore buildStore at h1
  obtain ⟨b0, -, -, hb0, -⟩ := insertAll_builder hash hok.buckets (blocksOf page prf H index) hs
  rw [hb0] at h1
  simp only at h1
  cases hbuild : (b0.insertAll (blocksOf page prf H index)).build enc none with
  | error f => rw [hbuild] at h1; simp at h1
  | ok fs =>
    rw [hbuild] at h1
    simp only at h1
    have hindex := insertIndex_spec hok.buckets hb0 hm prf H index [] Map.empty (by simpa using hs)
    rw [List.nil_append] at hindex
    have hb0' : b0.insertAll [] = b0 := rfl
    rw [hb0'] at hindex
    have hload : loadStash fs.stash = .ok st.stash ∧ st.table = fs.table ∧ st.hash = hash := by
      unfold Store.open at h1
      cases hl : loadStash fs.stash with
      | error f => rw [hl] at h1; simp at h1
      | ok m => rw [hl] at h1; cases h1; exact ⟨rfl, rfl, rfl⟩
    have hst : (Store.mk fs.table hash st.stash) = st := by
      rw [← hload.2.1, ← hload.2.2]
    refine ⟨fs, countersOf page index Map.empty, ?_, ?_, ?_⟩
    · unfold schemeBuild
      rw [hb0]
      simp only
      rw [hindex]
      simp only
      rw [hbuild]
    · intro x hx
      have hcnt : countersOf page index Map.empty x.1 =
          some (UInt32.ofNat (x.2.length / (page / 8 - 6) + 1)) :=
        (countersOf_spec page index Map.empty hok.keywords x.1).1 x hx rfl
      have hcl := cut_length hm (block := []) (ids := x.2) (by simpa using hm)
      simp only [List.length_nil, Nat.zero_add] at hcl
      have hblocks : (UInt32.ofNat (x.2.length / (page / 8 - 6) + 1)).toNat =
          (cut (page / 8 - 6) [] x.2).length := by
        rw [hcl, UInt32.toNat_ofNat']
        exact Nat.mod_eq_of_lt (hok.counters x hx)
      -- what each block returns
      have hblk : ∀ i, i < (cut (page / 8 - 6) [] x.2).length → ∃ r,
          st.getList enc (deriveCoreKey H (prf x.1) i) = .ok r ∧
          ∀ b, (cut (page / 8 - 6) [] x.2)[i]? = some b → r.Subperm b ∧
            ((∀ y ∈ index, y.2.length % (page / 8 - 6) ≠ 0) → r.Perm b) := by
        intro i hi
        have hb := List.getElem?_eq_getElem hi
        have hmem := keyed_get (deriveCoreKey H (prf x.1)) 0 _ i _ hb
        rw [Nat.zero_add] at hmem
        have hmem' : (deriveCoreKey H (prf x.1) i, (cut (page / 8 - 6) [] x.2)[i]) ∈
            blocksOf page prf H index := List.mem_flatMap.mpr ⟨x, hx, hmem⟩
        obtain ⟨r, h4, h5, h6⟩ := h2 _ hmem' (decide_eq_true (hfits _ hmem'))
        refine ⟨r, h4, ?_⟩
        intro b hb'
        rw [hb] at hb'
        cases hb'
        refine ⟨h5, fun hne => h6 ?_⟩
        intro y hy _
        obtain ⟨z, hz, hy⟩ := List.mem_flatMap.mp hy
        exact cut_ne_nil hm (block := []) (ids := z.2) (by simpa using hm)
          (by simpa using hne z hz) _ (mem_keyed hy)
      let f : Nat → List Index := fun i => match st.getList enc (deriveCoreKey H (prf x.1) i) with
        | .ok r => r
        | .error _ => []
      have hf : ∀ i, i < (cut (page / 8 - 6) [] x.2).length →
          st.getList enc (deriveCoreKey H (prf x.1) i) = .ok (f i) := by
        intro i hi
        obtain ⟨r, hr, -⟩ := hblk i hi
        simp only [f]
        rw [hr]
      have hf2 : ∀ (i : Nat) b, (cut (page / 8 - 6) [] x.2)[i]? = some b → (f (0 + i)).Subperm b ∧
            ((∀ y ∈ index, y.2.length % (page / 8 - 6) ≠ 0) → (f (0 + i)).Perm b) := by
        intro i b hb
        have hi := (List.getElem?_eq_some_iff.mp hb).1
        obtain ⟨r, hr, hrb⟩ := hblk i hi
        have : f i = r := by simp only [f]; rw [hr]
        rw [Nat.zero_add, this]
        exact hrb b hb
      obtain ⟨ps, h7, h8⟩ := search_blocks H ⟨fs.table, hash, Map.empty⟩ st.stash
        (⟨st.stash, countersOf page index Map.empty, prf, enc⟩ : Client W) rfl (prf x.1)
        (List.range (cut (page / 8 - 6) [] x.2).length) f (by
          intro i hi
          simp only
          rw [hst]
          exact hf i (List.mem_range.mp hi))
      have hsearch : schemeSearch hash prf H enc fs (countersOf page index Map.empty) x.1 =
          .ok ((List.range (cut (page / 8 - 6) [] x.2).length).flatMap f) := by
        unfold schemeSearch Client.open
        rw [hload.1]
        simp only [Store.open, loadStash]
        unfold serverSearch Client.searchRequest
        simp only [hcnt, Option.getD_some]
        rw [hblocks, h7]
        simp only
        exact h8
      refine ⟨_, hsearch, ?_, ?_⟩
      · rw [List.range_eq_range']
        have := subperm_flatMap_range' (cut (page / 8 - 6) [] x.2) 0 f (fun i b hb => (hf2 i b hb).1)
        rw [cut_flatten] at this
        exact this
      · intro hne
        rw [List.range_eq_range']
        have := perm_flatMap_range' (cut (page / 8 - 6) [] x.2) 0 f (fun i b hb => (hf2 i b hb).2 hne)
        rw [cut_flatten] at this
        exact this
    · intro w hw
      have hcnt : countersOf page index Map.empty w = none :=
        (countersOf_spec page index Map.empty hok.keywords w).2 hw
      unfold schemeSearch Client.open
      rw [hload.1]
      simp only [Store.open, loadStash]
      unfold serverSearch Client.searchRequest
      simp only [hcnt, Option.getD_none]
      rfl

/-- **C26**, restricted to indexes in which no list has a length that is a multiple of the block size
(in particular, no empty list): after the construction, the search of a keyword returns its documents,
each as often as in the index, and the search of another keyword returns nothing. For the other
indexes the property is false: see `C26_multiple_of_block_size_loses_data`. -/
theorem C26_search_partial {W : Type} [DecidableEq W] (page n : Nat) (hash : CoreKey → UInt64 × UInt64)
    (prf : W → Token) (H : List UInt8 → CoreKey) (enc : ValueEncoder) (index : List (W × List Index))
    (hok : Spec.IndexOk page n prf H index)
    (hmul : ∀ x ∈ index, x.2.length % (page / 8 - 6) ≠ 0) :
    ∃ fs counters, schemeBuild page n hash prf H enc index none = .ok (fs, counters) ∧
      (∀ x ∈ index, ∃ r, schemeSearch hash prf H enc fs counters x.1 = .ok r ∧ r.Perm x.2) ∧
      ∀ w, (∀ x ∈ index, x.1 ≠ w) → schemeSearch hash prf H enc fs counters w = .ok [] := by
  obtain ⟨fs, c, h1, h2, h3⟩ := search_spec page n hash prf H enc index hok
  refine ⟨fs, c, h1, ?_, h3⟩
  intro x hx
  obtain ⟨r, h4, -, h5⟩ := h2 x hx
  exact ⟨r, h4, h5 hmul⟩

/-- The hypotheses hold for a concrete index, and a search in it. -/
example : Spec.IndexOk 104 2 Sample.prf Sample.H Sample.index ∧
    (∀ x ∈ Sample.index, x.2.length % (104 / 8 - 6) ≠ 0) ∧
    Sample.search 104 2 Sample.index 2 = .ok [9, 10] :=
  ⟨sample_index_ok, by decide, by decide +kernel⟩

/-- **C26**, soundness for all list lengths: the construction and the searches never fault, and a search
returns documents of the keyword only, each at most as often as in the index. -/
theorem C26_search_sound {W : Type} [DecidableEq W] (page n : Nat) (hash : CoreKey → UInt64 × UInt64)
    (prf : W → Token) (H : List UInt8 → CoreKey) (enc : ValueEncoder) (index : List (W × List Index))
    (hok : Spec.IndexOk page n prf H index) :
    ∃ fs counters, schemeBuild page n hash prf H enc index none = .ok (fs, counters) ∧
      (∀ x ∈ index, ∃ r, schemeSearch hash prf H enc fs counters x.1 = .ok r ∧ r.Subperm x.2) ∧
      ∀ w, (∀ x ∈ index, x.1 ≠ w) → schemeSearch hash prf H enc fs counters w = .ok [] := by
  obtain ⟨fs, c, h1, h2, h3⟩ := search_spec page n hash prf H enc index hok
  refine ⟨fs, c, h1, ?_, h3⟩
  intro x hx
  obtain ⟨r, h4, h5, -⟩ := h2 x hx
  exact ⟨r, h4, h5⟩

/-- An index with a list of exactly one block -/
def Sample.oneBlock : List (Nat × List Index) := [(1, [1, 2, 3, 4, 5, 6, 7]), (2, [8, 9])]

/-- A list with a length equal to the block size is followed by an empty block, which hides the list of
another keyword. -/
theorem C26_multiple_of_block_size_loses_data : Sample.search 104 2 Sample.oneBlock 2 = .ok [] := by
  decide +kernel

/-- The other hypotheses hold for this index. -/
example : Spec.IndexOk 104 2 Sample.prf Sample.H Sample.oneBlock where
  buckets := by decide
  aligned := by decide
  small := by decide
  room := by decide
  total := by decide
  counters := by decide
  tokens := by decide
  hashes := by decide

end Verif.Tethys
