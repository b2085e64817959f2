import Verif.Pluto.Props
import Verif.Tethys.RepeatLemmas

/-! # Helper lemmas: keywords given several times to the Pluto builder -/

namespace Verif.Pluto

open Tethys (CoreKey Token deriveCoreKey ValueEncoder listsOf)

variable {N : Nat}

/-! ## The RocksDB table, without a hypothesis on the keys -/

theorem rocksdb_last (kvs : List (CoreKey × Vector Index N)) :
    ∃ t, (rocksdb N).insertAll (rocksdb N).new kvs = .ok t ∧ (rocksdb N).commit t = .ok t ∧
      ∀ k, ((∀ x ∈ kvs, x.1 ≠ k) → (rocksdb N).get t k = .error .outOfRange) ∧
        ((∃ x ∈ kvs, x.1 = k) → ∃ v, (k, v) ∈ kvs ∧ (rocksdb N).get t k = .ok v) := by
  have key : ∀ (kvs : List (CoreKey × Vector Index N)) (m : Map CoreKey (Vector Index N)),
      ∃ m' : Map CoreKey (Vector Index N), (rocksdb N).insertAll m kvs = .ok m' ∧
        ∀ k, ((∀ x ∈ kvs, x.1 ≠ k) → m' k = m k) ∧
          ((∃ x ∈ kvs, x.1 = k) → ∃ v, (k, v) ∈ kvs ∧ m' k = some v) := by
    intro kvs
    induction kvs with
    | nil =>
      intro m
      exact ⟨m, rfl, fun k => ⟨fun _ => rfl, fun ⟨x, hx, _⟩ => by cases hx⟩⟩
    | cons y kvs ih =>
      intro m
      obtain ⟨m', h1, h2⟩ := ih (m.put y.1 y.2)
      refine ⟨m', h1, fun k => ⟨fun h => ?_, fun h => ?_⟩⟩
      · rw [(h2 k).1 (fun x hx => h x (List.mem_cons_of_mem _ hx)),
          Map.put_of_ne _ _ (fun e => h y (List.mem_cons_self ..) e.symm)]
      · by_cases hk : ∃ x ∈ kvs, x.1 = k
        · obtain ⟨v, hv, h3⟩ := (h2 k).2 hk
          exact ⟨v, List.mem_cons_of_mem _ hv, h3⟩
        · have hy : y.1 = k := by
            obtain ⟨x, hx, hxk⟩ := h
            rcases List.mem_cons.mp hx with rfl | hx
            · exact hxk
            · exact absurd ⟨x, hx, hxk⟩ hk
          subst hy
          refine ⟨y.2, List.mem_cons_self .., ?_⟩
          rw [(h2 y.1).1 (fun x hx e => hk ⟨x, hx, e⟩), Map.put_self]
  obtain ⟨m', h1, h2⟩ := key kvs Map.empty
  refine ⟨m', h1, rfl, fun k => ⟨fun h => ?_, fun h => ?_⟩⟩
  · have := (h2 k).1 h
    simp only
    rw [this]
    rfl
  · obtain ⟨v, hv, h3⟩ := (h2 k).2 h
    refine ⟨v, hv, ?_⟩
    simp only
    rw [h3]

/-! ## Construction and search, without a hypothesis on the keys -/

section
variable {W : Type} {page size : Nat} {prf : W → Token} {H : List UInt8 → CoreKey} {n : UInt64}
  {rand : Nat → CoreKey} {index : List (W × List Index)}

theorem length_entries (hm : 0 < page / 8 - 6) :
    (tableEntries N (page / 8 - 6) prf H index).length = Spec.fullCount (page / 8 - 6) index := by
  unfold tableEntries Spec.fullCount
  rw [List.length_flatMap]
  congr 1
  apply List.map_congr_left
  intro x _
  rw [length_fullBlocks hm _ x.2 [] 1 hm]
  simp

theorem storeLists_small (htotal : (index.map (fun x => x.2.length + 6)).sum + page / 8 < 2 ^ 64) (L : Nat) :
    Tethys.SmallEnough page (storeLists L prf H index) := by
  unfold Tethys.SmallEnough
  refine Nat.lt_of_le_of_lt (Nat.add_le_add_right ?_ _) htotal
  unfold storeLists
  clear htotal
  generalize index = l
  induction l with
  | nil => simp
  | cons x l ih =>
    simp only [List.flatMap_cons, List.map_append, List.sum_append, List.map_cons, List.sum_cons]
    refine Nat.add_le_add ?_ ih
    have := length_lastBlock_le (L := L) x.2 []
    split
    · simp at this ⊢; omega
    · simp

/-- The construction, and a search from its two parts: the full blocks and the list of the Tethys store -/
theorem build_search (ht : HashTable N) (hash : CoreKey → UInt64 × UInt64) (enc : ValueEncoder)
    (hbuckets : 2 ≤ size) (haligned : 8 ∣ page) (hsmall : page < 2 ^ 63) (hroom : 6 < page / 8)
    (htotal : (index.map (fun x => x.2.length + 6)).sum + page / 8 < 2 ^ 64) {b : ht.B} {t : ht.T}
    (hins : ht.insertAll ht.new (entriesOf N page prf H n rand index) = .ok b) (hcommit : ht.commit b = .ok t) :
    ∃ fs, schemeBuild ht page size (page / 8 - 6) hash prf H enc n rand index = .ok (t, fs) ∧
      ∀ w, ∃ last,
        (∀ fuel complete, serverLoop ht t (deriveCoreKey H (prf w)) fuel 1 = .ok complete →
          schemeSearch ht hash prf H enc t fs fuel w = .ok (last ++ complete)) ∧
        last.Subperm (((storeLists (page / 8 - 6) prf H index).filter
          (fun x => decide (x.1 = deriveCoreKey H (prf w) 0))).flatMap Prod.snd) ∧
        (((storeLists (page / 8 - 6) prf H index).filter
          (fun x => decide (x.1 = deriveCoreKey H (prf w) 0))).length = 1 →
          last.Perm (((storeLists (page / 8 - 6) prf H index).filter
            (fun x => decide (x.1 = deriveCoreKey H (prf w) 0))).flatMap Prod.snd)) := by
  have hm : 0 < page / 8 - 6 := by omega
  have hsm := storeLists_small (prf := prf) (H := H) htotal (page / 8 - 6)
  have hlens : ∀ y ∈ storeLists (page / 8 - 6) prf H index, y.2.length + 6 ≤ page / 8 ∧ y.2 ≠ [] := by
    intro y hy
    obtain ⟨x, hx, hy⟩ := List.mem_flatMap.mp hy
    have hlt := length_lastBlock hm x.2 [] hm
    by_cases hl : (lastBlock (page / 8 - 6) x.2 []).length > 0
    · rw [if_pos hl, List.mem_singleton] at hy
      rw [hy]
      refine ⟨by simp only; omega, ?_⟩
      intro h
      simp only at h
      rw [h] at hl
      simp at hl
    · rw [if_neg hl] at hy; cases hy
  have hfilter : (storeLists (page / 8 - 6) prf H index).filter (Tethys.fits page) =
      storeLists (page / 8 - 6) prf H index := by
    rw [List.filter_eq_self]
    intro y hy
    exact decide_eq_true (hlens y hy).1
  obtain ⟨st, h1, h2⟩ := Tethys.getList_any page size hash enc (storeLists (page / 8 - 6) prf H index) hbuckets
    haligned hsmall hsm
  unfold Tethys.valuesOf at h2
  rw [hfilter] at h2
  unfold Tethys.openStore Tethys.buildStore at h1
  obtain ⟨b0, -, -, hb0, -⟩ := Tethys.insertAll_builder hash hbuckets (storeLists (page / 8 - 6) prf H index) hsm
  rw [hb0] at h1
  simp only at h1
  cases hbuild : (b0.insertAll (storeLists (page / 8 - 6) prf H index)).build enc none with
  | error f => rw [hbuild] at h1; simp at h1
  | ok fs =>
    rw [hbuild] at h1
    simp only at h1
    have hload : Tethys.loadStash fs.stash = .ok st.stash ∧ st.table = fs.table ∧ st.hash = hash := by
      unfold Tethys.Store.open at h1
      cases hl : Tethys.loadStash fs.stash with
      | error f => rw [hl] at h1; simp at h1
      | ok m => rw [hl] at h1; cases h1; exact ⟨rfl, rfl, rfl⟩
    have hst : (Tethys.Store.mk fs.table hash st.stash) = st := by rw [← hload.2.1, ← hload.2.2]
    refine ⟨fs, ?_, fun w => ?_⟩
    · unfold entriesOf at hins
      obtain ⟨t1, hi1, hi2⟩ := insertAll_append hins
      unfold schemeBuild
      rw [hb0]
      dsimp only
      have hidx := insertIndex_spec hbuckets hb0 hm (by omega) prf H index [] ht.new t1 0
        (by simpa using hsm) hi1
      rw [List.nil_append, show b0.insertAll [] = b0 from rfl] at hidx
      rw [hidx]
      dsimp only
      unfold Builder.build
      dsimp only
      rw [Nat.zero_add, length_entries hm]
      have hdum := addDummies_spec (ht := ht) (Spec.dummies (page / 8 - 6) n rand index) t1 b hi2
      unfold Spec.dummies at hdum
      rw [hdum]
      dsimp only
      rw [hcommit]
      dsimp only
      rw [hbuild]
    · obtain ⟨r, hr, h3, h4⟩ := h2 (deriveCoreKey H (prf w) 0)
      refine ⟨r, fun fuel complete hs => ?_, h3, fun hone => h4 hone (fun y hy _ => (hlens y hy).2)⟩
      unfold schemeSearch
      dsimp only
      rw [hs]
      dsimp only
      rw [hload.1]
      simp only [Tethys.Store.open, Tethys.loadStash]
      rw [← hst] at hr
      unfold Tethys.Store.getList at hr
      have hg : (Tethys.Store.mk fs.table hash st.stash).getBuckets (deriveCoreKey H (prf w) 0) =
          (Tethys.Store.mk fs.table hash Map.empty).getBuckets (deriveCoreKey H (prf w) 0) := rfl
      rw [hg] at hr
      dsimp only at hr
      cases hb : (Tethys.Store.mk fs.table hash Map.empty).getBuckets (deriveCoreKey H (prf w) 0) with
      | error e => rw [hb] at hr; cases hr
      | ok p =>
        rw [hb] at hr
        dsimp only at hr ⊢
        unfold Tethys.Client.decodeResults
        cases hdec : enc.decode (deriveCoreKey H (prf w) 0) p.b0 p.i0 p.b1 p.i1 with
        | error e => rw [hdec] at hr; cases hr
        | ok r' =>
          rw [hdec] at hr
          dsimp only at hr ⊢
          cases hr
          simp [Tethys.Client.decodeResults]

end

end Verif.Pluto
