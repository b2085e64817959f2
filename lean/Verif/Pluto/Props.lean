import Verif.Pluto.Lemmas
import Verif.Tethys.StoreProps
import Verif.Tethys.SchemeProps

/-!
# Properties of the Pluto scheme (C30)

The statements quantify over the page size, the sizes of the tables, the hasher, the pseudo-random function,
the hash function, the random keys, the encoder and the inverted index.
-/

namespace Verif.Pluto

open Tethys (CoreKey Token deriveCoreKey ValueEncoder)

/-! ## Hypotheses -/

/-- Number of full blocks of an index -/
def Spec.fullCount {W : Type} (L : Nat) (index : List (W × List Index)) : Nat :=
  (index.map (fun x => x.2.length / L)).sum

/-- The random keys of the dummy blocks -/
def Spec.dummies {W : Type} (L : Nat) (n : UInt64) (rand : Nat → CoreKey) (index : List (W × List Index)) :
    List CoreKey :=
  (List.range' (Spec.fullCount L index) ((nFullBlocks L n).toNat - Spec.fullCount L index)).map rand

/-- The keys of the blocks of a list, full or not, and the first key beyond -/
def Spec.keys {W : Type} (L : Nat) (prf : W → Token) (H : List UInt8 → CoreKey) (x : W × List Index) :
    List CoreKey :=
  (List.range (x.2.length / L + 2)).map (fun i => deriveCoreKey H (prf x.1) i)

/-- What is hashed for the index -/
def Spec.inputs {W : Type} (L : Nat) (prf : W → Token) (index : List (W × List Index)) : List (List UInt8) :=
  Tethys.Spec.inputs prf (fun x => x.2.length / L + 2) index

/-- Hypotheses on the parameters and the index, for blocks of `page / 8 - 6` indexes: no overflow of
64-bit and 32-bit counters, distinct tokens, no collision of the hash function on what is hashed for this
index, and random keys which are distinct and different from the hashes. -/
structure Spec.IndexOk {W : Type} (page size : Nat) (prf : W → Token) (H : List UInt8 → CoreKey)
    (n : UInt64) (rand : Nat → CoreKey) (index : List (W × List Index)) : Prop where
  buckets : 2 ≤ size
  aligned : 8 ∣ page
  small : page < 2 ^ 63
  room : 6 < page / 8
  total : (index.map (fun x => x.2.length + 6)).sum + page / 8 < 2 ^ 64
  counters : ∀ x ∈ index, x.2.length / (page / 8 - 6) + 1 < 2 ^ 32
  tokens : (index.map (fun x => prf x.1)).Nodup
  hashes : ∀ a ∈ Spec.inputs (page / 8 - 6) prf index, ∀ b ∈ Spec.inputs (page / 8 - 6) prf index,
    H a = H b → a = b
  random : (Spec.dummies (page / 8 - 6) n rand index).Nodup
  fresh : ∀ a ∈ Spec.inputs (page / 8 - 6) prf index,
    ∀ k ∈ Spec.dummies (page / 8 - 6) n rand index, H a ≠ k

/-- A keyword that is not in the index: its token is not the one of another keyword, and what is hashed for
it collides neither with the index nor with the random keys -/
def Spec.Absent {W : Type} (page : Nat) (prf : W → Token) (H : List UInt8 → CoreKey) (n : UInt64)
    (rand : Nat → CoreKey) (index : List (W × List Index)) (w : W) : Prop :=
  (∀ x ∈ index, prf x.1 ≠ prf w) ∧
  ∀ i < 2, (∀ a ∈ Spec.inputs (page / 8 - 6) prf index,
      H (Tethys.Spec.blockInput (prf w) i) = H a → Tethys.Spec.blockInput (prf w) i = a) ∧
    H (Tethys.Spec.blockInput (prf w) i) ∉ Spec.dummies (page / 8 - 6) n rand index

theorem Spec.IndexOk.keys {W : Type} {page size : Nat} {prf : W → Token} {H : List UInt8 → CoreKey}
    {n : UInt64} {rand : Nat → CoreKey} {index : List (W × List Index)}
    (h : Spec.IndexOk page size prf H n rand index) :
    (index.flatMap (Spec.keys (page / 8 - 6) prf H) ++
      Spec.dummies (page / 8 - 6) n rand index).Nodup := by
  rw [List.nodup_append]
  have hm := Tethys.map_inputs prf H (fun x => x.2.length / (page / 8 - 6) + 2) index
  refine ⟨Tethys.keys_nodup prf H _ index h.tokens
    (fun x hx => by have := h.counters x hx; omega) h.hashes, h.random, ?_⟩
  intro a ha b hb
  have ha' : a ∈ (Spec.inputs (page / 8 - 6) prf index).map H := by
    unfold Spec.inputs; rw [← hm]; exact ha
  obtain ⟨x, hx, rfl⟩ := List.mem_map.mp ha'
  exact h.fresh x hx b hb

theorem Spec.Absent.keys {W : Type} {page size : Nat} {prf : W → Token} {H : List UInt8 → CoreKey}
    {n : UInt64} {rand : Nat → CoreKey} {index : List (W × List Index)}
    (h : Spec.IndexOk page size prf H n rand index) {w : W} (hw : Spec.Absent page prf H n rand index w) :
    ∀ i < 2, deriveCoreKey H (prf w) i ∉ index.flatMap (Spec.keys (page / 8 - 6) prf H) ++
      Spec.dummies (page / 8 - 6) n rand index := by
  intro i hi hmem
  obtain ⟨h1, h2⟩ := hw.2 i hi
  rw [Tethys.deriveCoreKey_input] at hmem
  rcases List.mem_append.mp hmem with hk | hk
  · have hm := Tethys.map_inputs prf H (fun x => x.2.length / (page / 8 - 6) + 2) index
    have hk' : H (Tethys.Spec.blockInput (prf w) i) ∈ (Spec.inputs (page / 8 - 6) prf index).map H := by
      unfold Spec.inputs; rw [← hm]; exact hk
    obtain ⟨a, ha, he⟩ := List.mem_map.mp hk'
    have hin := h1 a ha he.symm
    obtain ⟨x, hx, ha'⟩ := List.mem_flatMap.mp ha
    obtain ⟨j, hj, rfl⟩ := List.mem_map.mp ha'
    replace hj : j < x.2.length / (page / 8 - 6) + 2 := List.mem_range.mp hj
    have := h.counters x hx
    exact hw.1 x hx (Tethys.blockInput_inj (by omega) (by omega) hin).1.symm
  · exact h2 hk

/-- What is inserted in the hash table: the full blocks of the lists, then the dummy blocks -/
def entriesOf {W : Type} (N page : Nat) (prf : W → Token) (H : List UInt8 → CoreKey) (n : UInt64)
    (rand : Nat → CoreKey) (index : List (W × List Index)) : List (CoreKey × Vector Index N) :=
  tableEntries N (page / 8 - 6) prf H index ++
    (Spec.dummies (page / 8 - 6) n rand index).map (fun k => (k, padded N []))

/-! ## The general statement -/

section
variable {N : Nat} {W : Type} {page size : Nat} {prf : W → Token} {H : List UInt8 → CoreKey} {n : UInt64}
  {rand : Nat → CoreKey} {index : List (W × List Index)}

theorem length_tableEntries (hok : Spec.IndexOk page size prf H n rand index) :
    (tableEntries N (page / 8 - 6) prf H index).length = Spec.fullCount (page / 8 - 6) index := by
  have hm : 0 < page / 8 - 6 := by have := hok.room; omega
  unfold tableEntries Spec.fullCount
  rw [List.length_flatMap]
  congr 1
  apply List.map_congr_left
  intro x _
  rw [length_fullBlocks hm _ x.2 [] 1 hm]
  simp

theorem fst_fullBlocks (hok : Spec.IndexOk page size prf H n rand index) (x : W × List Index) :
    (fullBlocks N (page / 8 - 6) (keyOf prf H x.1) x.2 [] 1).map Prod.fst =
      (List.range' 1 (x.2.length / (page / 8 - 6))).map (keyOf prf H x.1) := by
  have hm : 0 < page / 8 - 6 := by have := hok.room; omega
  rw [fullBlocks_fst, length_fullBlocks hm _ x.2 [] 1 hm]
  simp

theorem nodup_entries (hok : Spec.IndexOk page size prf H n rand index) :
    ((entriesOf N page prf H n rand index).map Prod.fst).Nodup := by
  unfold entriesOf
  rw [List.map_append, List.map_map]
  have hd : (Prod.fst ∘ fun k : CoreKey => (k, padded N [])) = id := rfl
  rw [hd, List.map_id]
  refine List.Nodup.sublist (List.Sublist.append ?_ (List.Sublist.refl _)) hok.keys
  unfold tableEntries
  rw [List.map_flatMap]
  have : ∀ l : List (W × List Index), (l.flatMap (fun x =>
      (fullBlocks N (page / 8 - 6) (keyOf prf H x.1) x.2 [] 1).map Prod.fst)).Sublist
      (l.flatMap (Spec.keys (page / 8 - 6) prf H)) := by
    intro l
    induction l with
    | nil => exact List.Sublist.refl _
    | cons x l ih =>
      simp only [List.flatMap_cons]
      refine List.Sublist.append ?_ ih
      rw [fst_fullBlocks hok]
      unfold Spec.keys
      apply List.Sublist.map
      rw [List.range_eq_range', List.range'_succ, Nat.zero_add, List.range'_1_concat]
      exact (List.sublist_append_left _ _).cons _
  exact this index

theorem search_spec (ht : HashTable N) (hash : CoreKey → UInt64 × UInt64) (enc : ValueEncoder)
    (hok : Spec.IndexOk page size prf H n rand index) (hN : page / 8 - 6 ≤ N) (P : CoreKey → Prop)
    {b : ht.B} {t : ht.T}
    (hins : ht.insertAll ht.new (entriesOf N page prf H n rand index) = .ok b) (hcommit : ht.commit b = .ok t)
    (hlook : Looks ht t (entriesOf N page prf H n rand index) P) :
    ∃ fs, schemeBuild ht page size (page / 8 - 6) hash prf H enc n rand index = .ok (t, fs) ∧
      (∀ x ∈ index, P (deriveCoreKey H (prf x.1) (x.2.length / (page / 8 - 6) + 1)) →
        ∀ fuel, x.2.length / (page / 8 - 6) < fuel →
        ∃ r, schemeSearch ht hash prf H enc t fs fuel x.1 = .ok r ∧
          r.Perm (x.2 ++ List.replicate (x.2.length / (page / 8 - 6) * (N - (page / 8 - 6))) 0)) ∧
      ∀ w, Spec.Absent page prf H n rand index w → P (deriveCoreKey H (prf w) 1) → ∀ fuel, 0 < fuel →
        schemeSearch ht hash prf H enc t fs fuel w = .ok [] := by
  generalize hLdef : page / 8 - 6 = L at *
  have hroom := hok.room
  have hm : 0 < L := by omega
  have hkeys := hok.keys
  rw [hLdef] at hkeys
  -- the Tethys store
  have hmemL : ∀ y ∈ storeLists L prf H index, ∃ x ∈ index, y = (keyOf prf H x.1 0, lastBlock L x.2 []) ∧
      y.2 ≠ [] := by
    intro y hy
    obtain ⟨x, hx, hy⟩ := List.mem_flatMap.mp hy
    by_cases hl : (lastBlock L x.2 []).length > 0
    · rw [if_pos hl, List.mem_singleton] at hy
      refine ⟨x, hx, hy, ?_⟩
      rw [hy]
      intro h
      simp only at h
      rw [h] at hl
      simp at hl
    · rw [if_neg hl] at hy; cases hy
  have hsm : Tethys.SmallEnough page (storeLists L prf H index) := by
    unfold Tethys.SmallEnough
    refine Nat.lt_of_le_of_lt (Nat.add_le_add_right ?_ _) hok.total
    unfold storeLists
    generalize index = l
    induction l with
    | nil => simp
    | cons x l ih =>
      simp only [List.flatMap_cons, List.map_append, List.sum_append, List.map_cons, List.sum_cons]
      refine Nat.add_le_add ?_ ih
      have := length_lastBlock_le (L := L) x.2 []
      split
      · simp at this ⊢; omega
      · simp
  have hfits : ∀ y ∈ storeLists L prf H index, y.2.length + 6 ≤ page / 8 := by
    intro y hy
    obtain ⟨x, -, rfl, -⟩ := hmemL y hy
    have := length_lastBlock hm x.2 [] hm
    simp only; omega
  have hd : Tethys.DistinctKeys page (storeLists L prf H index) := by
    unfold Tethys.DistinctKeys
    refine List.Nodup.sublist (List.Sublist.map _ List.filter_sublist) ?_
    refine List.Nodup.sublist ?_ (List.nodup_append.mp hkeys).1
    unfold storeLists
    rw [List.map_flatMap]
    generalize index = l
    induction l with
    | nil => exact List.Sublist.refl _
    | cons x l ih =>
      simp only [List.flatMap_cons]
      refine List.Sublist.append ?_ ih
      unfold Spec.keys
      rw [List.range_succ_eq_map, List.map_cons]
      split
      · exact (List.nil_sublist _).cons_cons _
      · exact List.nil_sublist _
  obtain ⟨st, h1, h2, h3⟩ := Tethys.getList_spec page size hash enc (storeLists L prf H index) hok.buckets
    hok.aligned hok.small hsm hd
  unfold Tethys.openStore Tethys.buildStore at h1
  obtain ⟨b0, -, -, hb0, -⟩ := Tethys.insertAll_builder hash hok.buckets (storeLists L prf H index) hsm
  rw [hb0] at h1
  simp only at h1
  cases hbuild : (b0.insertAll (storeLists L prf H index)).build enc none with
  | error f => rw [hbuild] at h1; simp at h1
  | ok fs =>
    rw [hbuild] at h1
    simp only at h1
    have hload : Tethys.loadStash fs.stash = .ok st.stash ∧ st.table = fs.table ∧ st.hash = hash := by
      unfold Tethys.Store.open at h1
      cases hl : Tethys.loadStash fs.stash with
      | error f => rw [hl] at h1; simp at h1
      | ok m => rw [hl] at h1; cases h1; exact ⟨rfl, rfl, rfl⟩
    have hst : (Tethys.Store.mk fs.table hash st.stash) = st := by rw [← hload.2.1, ← hload.2.2]
    -- the search, given its two parts
    have hsearch : ∀ (w : W) (fuel : Nat) (complete r : List Index),
        serverLoop ht t (deriveCoreKey H (prf w)) fuel 1 = .ok complete →
        st.getList enc (deriveCoreKey H (prf w) 0) = .ok r →
        schemeSearch ht hash prf H enc t fs fuel w = .ok (r ++ complete) := by
      intro w fuel complete r hs hr
      unfold schemeSearch
      dsimp only
      rw [hs]
      dsimp only
      rw [hload.1]
      simp only [Tethys.Store.open, Tethys.loadStash]
      rw [← hst] at hr
      unfold Tethys.Store.getList at hr
      have hg : (Tethys.Store.mk fs.table hash st.stash).getBuckets (deriveCoreKey H (prf w) 0) =
          (Tethys.Store.mk fs.table hash Map.empty).getBuckets (deriveCoreKey H (prf w) 0) := rfl
      rw [hg] at hr
      dsimp only at hr
      cases hb : (Tethys.Store.mk fs.table hash Map.empty).getBuckets (deriveCoreKey H (prf w) 0) with
      | error e => rw [hb] at hr; cases hr
      | ok p =>
        rw [hb] at hr
        dsimp only at hr ⊢
        unfold Tethys.Client.decodeResults
        cases hdec : enc.decode (deriveCoreKey H (prf w) 0) p.b0 p.i0 p.b1 p.i1 with
        | error e => rw [hdec] at hr; cases hr
        | ok r' =>
          rw [hdec] at hr
          dsimp only at hr ⊢
          cases hr
          simp [Tethys.Client.decodeResults]
    refine ⟨fs, ?_, ?_, ?_⟩
    · -- the construction
      unfold entriesOf at hins
      rw [hLdef] at hins
      obtain ⟨t1, hi1, hi2⟩ := insertAll_append hins
      unfold schemeBuild
      rw [hb0]
      dsimp only
      have hidx := insertIndex_spec hok.buckets hb0 hm (by omega) prf H index [] ht.new t1 0
        (by simpa using hsm) hi1
      rw [List.nil_append, show b0.insertAll [] = b0 from rfl] at hidx
      rw [hidx]
      dsimp only
      unfold Builder.build
      dsimp only
      have hlen := length_tableEntries (N := N) hok
      rw [hLdef] at hlen
      rw [Nat.zero_add, hlen]
      have hdum := addDummies_spec (ht := ht) (Spec.dummies L n rand index) t1 b hi2
      unfold Spec.dummies at hdum
      rw [hdum]
      dsimp only
      rw [hcommit]
      dsimp only
      rw [hbuild]
    · -- a keyword of the index
      intro x hx hP fuel hfuel
      have hfst := fst_fullBlocks (N := N) hok x
      rw [hLdef] at hfst
      have hlenF : (fullBlocks N L (keyOf prf H x.1) x.2 [] 1).length = x.2.length / L := by
        rw [length_fullBlocks hm _ x.2 [] 1 hm]; simp
      have hserver : serverLoop ht t (deriveCoreKey H (prf x.1)) fuel 1 =
          .ok (((fullBlocks N L (keyOf prf H x.1) x.2 [] 1).map Prod.snd).flatMap Vector.toList) := by
        have hc := hok.counters x hx
        rw [hLdef] at hc
        apply serverLoop_spec
        · rw [List.length_map, hlenF]; exact hfuel
        · rw [List.length_map, hlenF]; omega
        · intro j v hv
          rw [List.getElem?_map] at hv
          cases hj : (fullBlocks N L (keyOf prf H x.1) x.2 [] 1)[j]? with
          | none => rw [hj] at hv; cases hv
          | some y =>
            rw [hj] at hv
            cases hv
            have hlt := (List.getElem?_eq_some_iff.mp hj).1
            have hk : y.1 = deriveCoreKey H (prf x.1) (1 + j) := by
              have h5 : ((fullBlocks N L (keyOf prf H x.1) x.2 [] 1).map Prod.fst)[j]? = some y.1 := by
                rw [List.getElem?_map, hj]; rfl
              rw [hfst, List.getElem?_map, List.getElem?_range' (by omega)] at h5
              simp at h5
              exact h5.symm
            rw [← hk]
            apply hlook.1 y
            unfold entriesOf
            rw [hLdef]
            exact List.mem_append_left _ (List.mem_flatMap.mpr ⟨x, hx, List.mem_of_getElem? hj⟩)
        · rw [List.length_map, hlenF, Nat.add_comm]
          apply hlook.2 _ _ hP
          -- the first key beyond is not in the table
          intro y hy he
          unfold entriesOf at hy
          rw [hLdef] at hy
          have hin : deriveCoreKey H (prf x.1) (x.2.length / L + 1) ∈ Spec.keys L prf H x :=
            List.mem_map.mpr ⟨_, List.mem_range.mpr (by omega), rfl⟩
          rcases List.mem_append.mp hy with hy | hy
          · obtain ⟨z, hz, hy⟩ := List.mem_flatMap.mp hy
            have hy1 : y.1 ∈ (List.range' 1 (z.2.length / L)).map (keyOf prf H z.1) := by
              have := fst_fullBlocks (N := N) hok z
              rw [hLdef] at this
              rw [← this]; exact List.mem_map_of_mem hy
            obtain ⟨j, hj, hjy⟩ := List.mem_map.mp hy1
            rw [List.mem_range'_1] at hj
            have hnod := (List.nodup_append.mp hkeys).1
            -- positions in the list of keys
            obtain ⟨l1, l2, hl⟩ := List.append_of_mem hz
            rw [hl] at hnod hx
            rw [List.flatMap_append, List.flatMap_cons] at hnod
            have hjin : y.1 ∈ Spec.keys L prf H z :=
              List.mem_map.mpr ⟨j, List.mem_range.mpr (by omega), hjy⟩
            rcases List.mem_append.mp hx with hx | hx
            · exact (List.nodup_append.mp hnod).2.2 _ (List.mem_flatMap.mpr ⟨x, hx, hin⟩) _
                (List.mem_append_left _ hjin) he.symm
            · rcases List.mem_cons.mp hx with rfl | hx
              · have h6 := (List.nodup_append.mp (List.nodup_append.mp hnod).2.1).1
                unfold Spec.keys at h6
                have h7 : ((List.range (x.2.length / L + 2)).map
                    (fun i => deriveCoreKey H (prf x.1) i))[j]? = some y.1 := by
                  rw [List.getElem?_map, List.getElem?_range (by omega)]
                  simp only [Option.map_some, Option.some.injEq]; exact hjy
                have h8 : ((List.range (x.2.length / L + 2)).map
                    (fun i => deriveCoreKey H (prf x.1) i))[x.2.length / L + 1]? = some y.1 := by
                  rw [List.getElem?_map, List.getElem?_range (by omega)]
                  simp only [Option.map_some, Option.some.injEq]; exact he.symm
                have := (List.getElem?_inj (by simp; omega) h6).mp (h7.trans h8.symm)
                omega
              · exact (List.nodup_append.mp (List.nodup_append.mp hnod).2.1).2.2 _ hjin _
                  (List.mem_flatMap.mpr ⟨x, hx, hin⟩) he
          · obtain ⟨k, hk, rfl⟩ := List.mem_map.mp hy
            exact (List.nodup_append.mp hkeys).2.2 _ (List.mem_flatMap.mpr ⟨x, hx, hin⟩) _ hk he.symm
      have htethys : ∃ r, st.getList enc (deriveCoreKey H (prf x.1) 0) = .ok r ∧
          r.Perm (lastBlock L x.2 []) := by
        by_cases hl : (lastBlock L x.2 []).length > 0
        · have hmem : (keyOf prf H x.1 0, lastBlock L x.2 []) ∈ storeLists L prf H index :=
            List.mem_flatMap.mpr ⟨x, hx, by rw [if_pos hl]; exact List.mem_singleton.mpr rfl⟩
          obtain ⟨r, h4, -, h5⟩ := h2 _ hmem (decide_eq_true (hfits _ hmem))
          refine ⟨r, h4, h5 ?_⟩
          intro y hy _
          obtain ⟨-, -, -, hne⟩ := hmemL y hy
          exact hne
        · have hnil : lastBlock L x.2 [] = [] := List.eq_nil_of_length_eq_zero (by omega)
          refine ⟨[], h3 _ ?_, by rw [hnil]⟩
          intro y hy _ he
          -- another keyword with the same key
          obtain ⟨z, hz, rfl, hne⟩ := hmemL y hy
          have hnod := (List.nodup_append.mp hkeys).1
          have hin : deriveCoreKey H (prf x.1) 0 ∈ Spec.keys L prf H x :=
            List.mem_map.mpr ⟨_, List.mem_range.mpr (Nat.succ_pos _), rfl⟩
          have hzin : deriveCoreKey H (prf z.1) 0 ∈ Spec.keys L prf H z :=
            List.mem_map.mpr ⟨_, List.mem_range.mpr (Nat.succ_pos _), rfl⟩
          obtain ⟨l1, l2, hl⟩ := List.append_of_mem hz
          rw [hl] at hnod hx
          rw [List.flatMap_append, List.flatMap_cons] at hnod
          rcases List.mem_append.mp hx with hx | hx
          · exact (List.nodup_append.mp hnod).2.2 _ (List.mem_flatMap.mpr ⟨x, hx, hin⟩) _
              (List.mem_append_left _ hzin) he.symm
          · rcases List.mem_cons.mp hx with rfl | hx
            · exact hne hnil
            · exact (List.nodup_append.mp (List.nodup_append.mp hnod).2.1).2.2 _ hzin _
                (List.mem_flatMap.mpr ⟨x, hx, hin⟩) he
      obtain ⟨r, hr, hperm⟩ := htethys
      refine ⟨_, hsearch x.1 fuel _ r hserver hr, ?_⟩
      have hall := blocks_perm (N := N) hN (keyOf prf H x.1) x.2 [] 1
      rw [hlenF, List.nil_append] at hall
      refine List.Perm.trans ?_ hall
      rw [List.flatMap_map]
      exact (hperm.append_right _).trans List.perm_append_comm
    · -- another keyword
      intro w hw hP fuel hfuel
      replace hw := Spec.Absent.keys hok hw
      rw [hLdef] at hw
      have hserver : serverLoop ht t (deriveCoreKey H (prf w)) fuel 1 = .ok [] := by
        refine serverLoop_spec [] 1 fuel hfuel (by simp) (by simp) ?_
        apply hlook.2 _ _ hP
        intro y hy he
        apply hw 1 (by omega)
        rw [← he]
        unfold entriesOf at hy
        rw [hLdef] at hy
        rcases List.mem_append.mp hy with hy | hy
        · obtain ⟨z, hz, hy⟩ := List.mem_flatMap.mp hy
          have hy1 : y.1 ∈ (List.range' 1 (z.2.length / L)).map (keyOf prf H z.1) := by
            have := fst_fullBlocks (N := N) hok z
            rw [hLdef] at this
            rw [← this]; exact List.mem_map_of_mem hy
          obtain ⟨j, hj, hjy⟩ := List.mem_map.mp hy1
          rw [List.mem_range'_1] at hj
          exact List.mem_append_left _ (List.mem_flatMap.mpr ⟨z, hz,
            List.mem_map.mpr ⟨j, List.mem_range.mpr (by omega), hjy⟩⟩)
        · obtain ⟨k, hk, rfl⟩ := List.mem_map.mp hy
          exact List.mem_append_right _ hk
      have hr : st.getList enc (deriveCoreKey H (prf w) 0) = .ok [] := by
        apply h3
        intro y hy _ he
        obtain ⟨z, hz, rfl, -⟩ := hmemL y hy
        apply hw 0 (by omega)
        rw [← he]
        exact List.mem_append_left _ (List.mem_flatMap.mpr ⟨z, hz,
          List.mem_map.mpr ⟨0, List.mem_range.mpr (Nat.succ_pos _), rfl⟩⟩)
      have := hsearch w fuel [] [] hserver hr
      simpa using this

end

/-! ## The theorems -/

/-- **C30**, for the RocksDB parameters, where the values have exactly one block: the construction succeeds,
the search of a keyword returns exactly its documents, each as often as in the index, and the search of
another keyword returns nothing. -/
theorem C30_rocksdb {W : Type} (page size : Nat) (hash : CoreKey → UInt64 × UInt64) (prf : W → Token)
    (H : List UInt8 → CoreKey) (enc : ValueEncoder) (n : UInt64) (rand : Nat → CoreKey)
    (index : List (W × List Index)) (hok : Spec.IndexOk page size prf H n rand index) :
    ∃ t fs, schemeBuild (rocksdb (tethysLength page)) page size (tethysLength page) hash prf H enc n rand
        index = .ok (t, fs) ∧
      (∀ x ∈ index, ∀ fuel, x.2.length / tethysLength page < fuel →
        ∃ r, schemeSearch (rocksdb (tethysLength page)) hash prf H enc t fs fuel x.1 = .ok r ∧ r.Perm x.2) ∧
      ∀ w, Spec.Absent page prf H n rand index w → ∀ fuel, 0 < fuel →
        schemeSearch (rocksdb (tethysLength page)) hash prf H enc t fs fuel w = .ok [] := by
  obtain ⟨b, t, hins, hcommit, hlook⟩ := rocksdb_looks (entriesOf (tethysLength page) page prf H n rand index)
    (nodup_entries hok)
  obtain ⟨fs, h1, h2, h3⟩ := search_spec _ hash enc hok (Nat.le_refl _) _ hins hcommit hlook
  refine ⟨t, fs, h1, ?_, fun w hw fuel hf => h3 w hw trivial fuel hf⟩
  intro x hx fuel hf
  obtain ⟨r, hr, hp⟩ := h2 x hx trivial fuel hf
  refine ⟨r, hr, ?_⟩
  rw [Nat.sub_self, Nat.mul_zero] at hp
  simpa using hp

/-- The entries of the cuckoo table -/
def Spec.blocks {W : Type} (page : Nat) (prf : W → Token) (H : List UInt8 → CoreKey) (n : UInt64)
    (rand : Nat → CoreKey) (index : List (W × List Index)) :
    List (CoreKey × Vector UInt8 (8 * cuckooLength page)) :=
  (entriesOf (cuckooLength page) page prf H n rand index).map (fun x => (x.1, serializeValue x.2))

theorem defaultLength_eq {page : Nat} (h : 6 < page / 8) : defaultLength page = page / 8 - 6 := by
  unfold defaultLength cuckooLength tethysLength
  split <;> omega

theorem default_spec {W : Type} (page size tsize depth : Nat) (hash : CoreKey → UInt64 × UInt64)
    (prf : W → Token) (H : List UInt8 → CoreKey) (enc : ValueEncoder) (n : UInt64) (rand : Nat → CoreKey)
    (index : List (W × List Index)) (hok : Spec.IndexOk page size prf H n rand index) (ht : 0 < tsize)
    (hlen : (Spec.blocks page prf H n rand index).length < 2 ^ 64)
    (hsp : Oceanus.spilled tsize depth Oceanus.oceanusHash (Spec.blocks page prf H n rand index) = []) :
    ∃ t fs, schemeBuild (cuckoo (cuckooLength page) tsize depth) page size (defaultLength page) hash prf H enc n
        rand index = .ok (t, fs) ∧
      (∀ x ∈ index, deriveCoreKey H (prf x.1) (x.2.length / defaultLength page + 1) ≠ Oceanus.Spec.allOnes →
        ∀ fuel, x.2.length / defaultLength page < fuel →
        ∃ r, schemeSearch (cuckoo (cuckooLength page) tsize depth) hash prf H enc t fs fuel x.1 = .ok r ∧
          r.Perm (x.2 ++ List.replicate (4 * (x.2.length / defaultLength page)) 0)) ∧
      ∀ w, Spec.Absent page prf H n rand index w → deriveCoreKey H (prf w) 1 ≠ Oceanus.Spec.allOnes →
        ∀ fuel, 0 < fuel →
        schemeSearch (cuckoo (cuckooLength page) tsize depth) hash prf H enc t fs fuel w = .ok [] := by
  have hroom := hok.room
  rw [defaultLength_eq hroom]
  obtain ⟨b, t, hins, hcommit, hlook⟩ := cuckoo_looks tsize depth
    (entriesOf (cuckooLength page) page prf H n rand index) ht (by simpa [Spec.blocks] using hlen)
    (nodup_entries hok) hsp
  obtain ⟨fs, h1, h2, h3⟩ := search_spec _ hash enc hok (by unfold cuckooLength; omega) _ hins hcommit hlook
  refine ⟨t, fs, h1, ?_, h3⟩
  intro x hx hk fuel hf
  obtain ⟨r, hr, hp⟩ := h2 x hx hk fuel hf
  refine ⟨r, hr, ?_⟩
  rwa [show cuckooLength page - (page / 8 - 6) = 4 by unfold cuckooLength; omega, Nat.mul_comm] at hp

/-- **C30**, for the default parameters, restricted to the indexes in which all the lists are shorter than a
block, to cuckoo tables that lose nothing, and to keys that are not all ones: the construction succeeds, the
search of a keyword returns exactly its documents, and the search of another keyword returns nothing. For
longer lists the property is false: see `C30_default_spurious`. -/
theorem C30_default_partial {W : Type} (page size tsize depth : Nat) (hash : CoreKey → UInt64 × UInt64)
    (prf : W → Token) (H : List UInt8 → CoreKey) (enc : ValueEncoder) (n : UInt64) (rand : Nat → CoreKey)
    (index : List (W × List Index)) (hok : Spec.IndexOk page size prf H n rand index) (ht : 0 < tsize)
    (hlen : (Spec.blocks page prf H n rand index).length < 2 ^ 64)
    (hsp : Oceanus.spilled tsize depth Oceanus.oceanusHash (Spec.blocks page prf H n rand index) = [])
    (hshort : ∀ x ∈ index, x.2.length < defaultLength page)
    (hone : ∀ x ∈ index, deriveCoreKey H (prf x.1) 1 ≠ Oceanus.Spec.allOnes) :
    ∃ t fs, schemeBuild (cuckoo (cuckooLength page) tsize depth) page size (defaultLength page) hash prf H enc n
        rand index = .ok (t, fs) ∧
      (∀ x ∈ index, ∀ fuel, 0 < fuel →
        ∃ r, schemeSearch (cuckoo (cuckooLength page) tsize depth) hash prf H enc t fs fuel x.1 = .ok r ∧
          r.Perm x.2) ∧
      ∀ w, Spec.Absent page prf H n rand index w → deriveCoreKey H (prf w) 1 ≠ Oceanus.Spec.allOnes →
        ∀ fuel, 0 < fuel →
        schemeSearch (cuckoo (cuckooLength page) tsize depth) hash prf H enc t fs fuel w = .ok [] := by
  obtain ⟨t, fs, h1, h2, h3⟩ := default_spec page size tsize depth hash prf H enc n rand index hok ht hlen hsp
  refine ⟨t, fs, h1, ?_, h3⟩
  intro x hx fuel hf
  have h0 : x.2.length / defaultLength page = 0 := Nat.div_eq_of_lt (hshort x hx)
  obtain ⟨r, hr, hp⟩ := h2 x hx (by rw [h0]; exact hone x hx) fuel (by rw [h0]; exact hf)
  refine ⟨r, hr, ?_⟩
  rw [h0] at hp
  simpa using hp

/-- For the default parameters, C30 is false as soon as a list has a full block: a search returns the
documents of the keyword and, for each full block, the index zero four times more, since a value of the
cuckoo table has room for four more indexes than a block. -/
theorem C30_default_spurious {W : Type} (page size tsize depth : Nat) (hash : CoreKey → UInt64 × UInt64)
    (prf : W → Token) (H : List UInt8 → CoreKey) (enc : ValueEncoder) (n : UInt64) (rand : Nat → CoreKey)
    (index : List (W × List Index)) (hok : Spec.IndexOk page size prf H n rand index) (ht : 0 < tsize)
    (hlen : (Spec.blocks page prf H n rand index).length < 2 ^ 64)
    (hsp : Oceanus.spilled tsize depth Oceanus.oceanusHash (Spec.blocks page prf H n rand index) = []) :
    ∃ t fs, schemeBuild (cuckoo (cuckooLength page) tsize depth) page size (defaultLength page) hash prf H enc n
        rand index = .ok (t, fs) ∧
      ∀ x ∈ index, deriveCoreKey H (prf x.1) (x.2.length / defaultLength page + 1) ≠ Oceanus.Spec.allOnes →
        ∀ fuel, x.2.length / defaultLength page < fuel →
        ∃ r, schemeSearch (cuckoo (cuckooLength page) tsize depth) hash prf H enc t fs fuel x.1 = .ok r ∧
          r.Perm (x.2 ++ List.replicate (4 * (x.2.length / defaultLength page)) 0) ∧
          (defaultLength page ≤ x.2.length → ¬ r.Perm x.2) := by
  obtain ⟨t, fs, h1, h2, -⟩ := default_spec page size tsize depth hash prf H enc n rand index hok ht hlen hsp
  refine ⟨t, fs, h1, ?_⟩
  intro x hx hk fuel hf
  obtain ⟨r, hr, hp⟩ := h2 x hx hk fuel hf
  refine ⟨r, hr, hp, ?_⟩
  intro hle hp'
  have h4 := hp.length_eq
  rw [hp'.length_eq, List.length_append, List.length_replicate] at h4
  have hpos : 0 < x.2.length / defaultLength page := by
    refine Nat.div_pos hle ?_
    rw [defaultLength_eq hok.room]
    have := hok.room
    omega
  omega

/-- The number of full blocks of an empty index (`n_elts = 0`) wraps: it is more than the number of blocks
of any other index. -/
theorem C30_empty_index_wraps (L : Nat) (h2 : 2 ≤ L) (hL : L < 2 ^ 64) :
    (nFullBlocks L 0).toNat = 1 + (2 ^ 64 - 1) / L := by
  have h1 : (UInt64.ofNat L).toNat = L := by
    rw [UInt64.toNat_ofNat']; exact Nat.mod_eq_of_lt hL
  unfold nFullBlocks
  rw [UInt64.toNat_add, UInt64.toNat_div, h1]
  have h3 : (0 - 1 : UInt64).toNat = 2 ^ 64 - 1 := by decide
  rw [h3]
  have h4 : (2 ^ 64 - 1) / L ≤ (2 ^ 64 - 1) / 2 := Nat.div_le_div_left h2 (by omega)
  have h5 : (1 : UInt64).toNat = 1 := rfl
  rw [h5]
  apply Nat.mod_eq_of_lt
  omega

/-! ## Concrete cases -/

namespace Sample

open Tethys.Sample (prf H hash cipher key)

/-- A random key -/
def rand (i : Nat) : CoreKey := Vector.ofFn (fun j => if j.val = 15 then UInt8.ofNat (i + 1) else 0)

/-- An index; with pages of 104 bytes, the blocks have seven entries -/
def index : List (Nat × List Index) :=
  [(1, [1, 2, 3, 4, 5, 6, 7, 8]), (2, [9, 10]), (3, [11, 12, 13, 14, 15, 16, 17])]

/-- An index with short lists -/
def short : List (Nat × List Index) := [(1, [1, 2, 3, 4, 5]), (2, [9, 10]), (3, [])]

/-- Four full blocks and two more indexes -/
def long : List (Nat × List Index) :=
  [(1, (List.range 30).map (fun i => BitVec.ofNat 64 (i + 1)))]

/-- A search after the construction -/
def search {N : Nat} (ht : HashTable N) (L : Nat) (n : UInt64) (ix : List (Nat × List Index)) (w : Nat) :
    Except Fault (List Index) :=
  match schemeBuild ht 104 2 L hash prf H (.encrypt cipher key) n rand ix with
  | .error f => .error f
  | .ok (t, fs) => schemeSearch ht hash prf H (.encrypt cipher key) t fs 10 w

end Sample

theorem sample_index_ok : Spec.IndexOk 104 2 Tethys.Sample.prf Tethys.Sample.H 17 Sample.rand Sample.index where
  buckets := by decide
  aligned := by decide
  small := by decide
  room := by decide
  total := by decide
  counters := by decide
  tokens := by decide
  hashes := by decide
  random := by decide
  fresh := by decide

/-- The hypotheses of `C30_rocksdb` hold for a concrete index, and searches in it: a list of one block and
one more index, a list of exactly one block, a keyword without documents. -/
example : Spec.IndexOk 104 2 Tethys.Sample.prf Tethys.Sample.H 17 Sample.rand Sample.index ∧
    Spec.Absent 104 Tethys.Sample.prf Tethys.Sample.H 17 Sample.rand Sample.index 9 ∧
    (Sample.search (rocksdb 7) 7 17 Sample.index 1).toOption = some [8, 1, 2, 3, 4, 5, 6, 7] ∧
    (Sample.search (rocksdb 7) 7 17 Sample.index 3).toOption = some [11, 12, 13, 14, 15, 16, 17] ∧
    (Sample.search (rocksdb 7) 7 17 Sample.index 9).toOption = some [] :=
  ⟨sample_index_ok, by unfold Spec.Absent; decide, by decide +kernel, by decide +kernel, by decide +kernel⟩

/-- The hypotheses of `C30_default_partial` hold for a concrete index, and searches in it. -/
example : Spec.IndexOk 104 2 Tethys.Sample.prf Tethys.Sample.H 7 Sample.rand Sample.short ∧
    (Spec.blocks 104 Tethys.Sample.prf Tethys.Sample.H 7 Sample.rand Sample.short).length = 1 ∧
    Oceanus.spilled 4 3 Oceanus.oceanusHash
      (Spec.blocks 104 Tethys.Sample.prf Tethys.Sample.H 7 Sample.rand Sample.short) = [] ∧
    (∀ x ∈ Sample.short, x.2.length < defaultLength 104) ∧
    (∀ x ∈ Sample.short, deriveCoreKey Tethys.Sample.H (Tethys.Sample.prf x.1) 1 ≠ Oceanus.Spec.allOnes) ∧
    (Sample.search (cuckoo 11 4 3) 7 7 Sample.short 1).toOption = some [4, 5, 1, 2, 3] ∧
    (Sample.search (cuckoo 11 4 3) 7 7 Sample.short 3).toOption = some [] :=
  ⟨⟨by decide, by decide, by decide, by decide, by decide, by decide, by decide, by decide, by decide,
    by decide⟩, by decide, by decide +kernel,
    by decide, by decide, by decide +kernel, by decide +kernel⟩

/-- The hypotheses of `C30_default_spurious` hold for a concrete index, and searches in it, with four zeros for
each full block. -/
example : Spec.IndexOk 104 2 Tethys.Sample.prf Tethys.Sample.H 17 Sample.rand Sample.index ∧
    Oceanus.spilled 4 3 Oceanus.oceanusHash
      (Spec.blocks 104 Tethys.Sample.prf Tethys.Sample.H 17 Sample.rand Sample.index) = [] ∧
    (Sample.search (cuckoo 11 4 3) 7 17 Sample.index 1).toOption =
      some [8, 1, 2, 3, 4, 5, 6, 7, 0, 0, 0, 0] ∧
    (Sample.search (cuckoo 11 4 3) 7 17 Sample.index 3).toOption =
      some [11, 12, 13, 14, 15, 16, 17, 0, 0, 0, 0] :=
  ⟨sample_index_ok, by decide +kernel, by decide +kernel, by decide +kernel⟩

/-- When the cuckoo table loses a block, the search stops at this block: here the search of a keyword with
thirty documents returns the two of the last block only. -/
theorem C30_spilled_block_truncates :
    Spec.IndexOk 104 2 Tethys.Sample.prf Tethys.Sample.H 30 Sample.rand Sample.long ∧
    (Sample.search (cuckoo 11 1 2) 7 30 Sample.long 1).toOption = some [29, 30] :=
  ⟨⟨by decide, by decide, by decide, by decide, by decide, by decide, by decide, by decide, by decide,
    by decide⟩, by decide +kernel⟩

end Verif.Pluto
