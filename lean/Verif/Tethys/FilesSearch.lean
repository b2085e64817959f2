import Verif.Tethys.FilesLemmas
import Verif.Tethys.StoreBuild

/-!
# Searches in the files of a Tethys database, for any content of the counter database
-/

namespace Verif.Tethys

/-- The keys of the blocks `lo`, …, `hi - 1` for the token `t` are not keys of blocks of the index. -/
def Spec.Unused {W : Type} (page : Nat) (prf : W → Token) (H : List UInt8 → CoreKey)
    (index : List (W × List Index)) (t : Token) (lo hi : Nat) : Prop :=
  ∀ i, lo ≤ i → i < hi → ∀ a ∈ Spec.inputs prf (fun x => Spec.blockCount page x.2.length) index,
    H (Spec.blockInput t i) ≠ H a

theorem cut_take {max : Nat} (hm : 0 < max) (ids block : List Index) (hb : block.length < max) (k : Nat) :
    ((cut max block ids).take k).flatten = (block ++ ids).take (k * max) := by
  induction ids generalizing block k with
  | nil =>
    cases k with
    | zero => simp
    | succ k =>
      have : max ≤ (k + 1) * max := Nat.le_mul_of_pos_left _ (by omega)
      rw [cut, List.append_nil, List.take_of_length_le (by simp), List.take_of_length_le (by omega)]
      simp
  | cons id ids ih =>
    unfold cut
    cases k with
    | zero => simp
    | succ k =>
      split
      · rename_i hl
        rw [List.take_succ_cons, List.flatten_cons, ih [] (by simpa using hm), List.nil_append,
          show block ++ id :: ids = (block ++ [id]) ++ ids by simp, List.take_append,
          List.take_of_length_le (l := block ++ [id]) (by rw [hl, Nat.succ_mul]; omega), hl, Nat.succ_mul,
          Nat.add_sub_cancel]
      · rename_i hl
        rw [ih (block ++ [id]) (by simp at hl ⊢; omega)]
        simp

theorem mem_blocksOf_fst {W : Type} {page : Nat} (hm : 0 < page / 8 - 6) (prf : W → Token)
    (H : List UInt8 → CoreKey) (index : List (W × List Index)) {y : CoreKey × List Index}
    (hy : y ∈ blocksOf page prf H index) :
    ∃ a ∈ Spec.inputs prf (fun x => Spec.blockCount page x.2.length) index, y.1 = H a := by
  have : y.1 ∈ (blocksOf page prf H index).map Prod.fst := List.mem_map.mpr ⟨y, hy, rfl⟩
  rw [blocksOf_fst hm] at this
  have h2 := map_inputs prf H (fun x => Spec.blockCount page x.2.length) index
  unfold Spec.blockCount at h2
  rw [h2] at this
  obtain ⟨a, ha, h⟩ := List.mem_map.mp this
  exact ⟨a, ha, h.symm⟩

/-- The files of a new database, and the searches with any counters -/
theorem search_counters {W : Type} [DecidableEq W] (page n : Nat) (hash : CoreKey → UInt64 × UInt64)
    (prf : W → Token) (H : List UInt8 → CoreKey) (enc : ValueEncoder) (index : List (W × List Index))
    (hok : Spec.IndexOk page n prf H index) :
    ∃ b0 fs, Builder.new page n hash = .ok b0 ∧
      (b0.insertAll (blocksOf page prf H index)).build enc none = .ok fs ∧
      fs.table.length = n ∧ (∀ p ∈ fs.table, p.length = page) ∧
      (b0.insertAll (blocksOf page prf H index)).page = page ∧
      ∀ (c : Map W UInt32) (w : W),
        (∀ x ∈ index, x.1 = w → ∀ k, c w = some k →
          Spec.Unused page prf H index (prf w) (Spec.blockCount page x.2.length) k.toNat →
          ∃ r, schemeSearch hash prf H enc fs c w = .ok r ∧ r.Subperm (x.2.take (k.toNat * (page / 8 - 6))) ∧
            ((∀ y ∈ index, y.2.length % (page / 8 - 6) ≠ 0) →
              r.Perm (x.2.take (k.toNat * (page / 8 - 6))))) ∧
        ((∀ k, c w = some k → Spec.Unused page prf H index (prf w) 0 k.toNat) →
          schemeSearch hash prf H enc fs c w = .ok []) := by
  have hroom := hok.room
  have hm : 0 < page / 8 - 6 := by omega
  have hs : SmallEnough page (blocksOf page prf H index) := by
    unfold SmallEnough
    rw [sum_blocksOf hm]
    exact hok.total
  have hfits : ∀ y ∈ blocksOf page prf H index, y.2.length + 6 ≤ page / 8 := by
    intro y hy
    obtain ⟨x, hx, hy⟩ := List.mem_flatMap.mp hy
    have := cut_length_le hm (block := []) (ids := x.2) (by simpa using hm) _ (mem_keyed hy)
    omega
  have hfilter : (blocksOf page prf H index).filter (fits page) = blocksOf page prf H index := by
    rw [List.filter_eq_self]
    intro y hy
    exact decide_eq_true (hfits y hy)
  have hd : DistinctKeys page (blocksOf page prf H index) := by
    unfold DistinctKeys
    rw [hfilter, blocksOf_fst hm]
    exact hok.keys
  obtain ⟨st, h1, h2, h3⟩ := getList_spec page n hash enc (blocksOf page prf H index) hok.buckets
    hok.aligned hok.small hs hd
  unfold openStore buildStore at h1
  obtain ⟨b0, a0, a, hb0, -, -, hpg⟩ := insertAll_builder hash hok.buckets (blocksOf page prf H index) hs
  obtain ⟨recs, cs, b0', hb0', -, -, hcs, -, hb⟩ := build_spec (page := page) hash hok.buckets
    (blocksOf page prf H index) hs
  rw [hb0] at hb0'
  cases hb0'
  rw [hb0] at h1
  simp only at h1
  have hbuild := hb enc none
  generalize hfs : (Files.mk ((List.range n).map (fun v => enc.seal v (pageOf page (cs v))))
    (if recs.filter Placed.stashed = [] then none
      else some ((recs.filter Placed.stashed).flatMap Placed.stashBytes))) = fs at hbuild
  have htab : fs.table = (List.range n).map (fun v => enc.seal v (pageOf page (cs v))) := by rw [← hfs]
  rw [hbuild] at h1
  simp only at h1
  have hload : loadStash fs.stash = .ok st.stash ∧ st.table = fs.table ∧ st.hash = hash := by
    unfold Store.open at h1
    cases hl : loadStash fs.stash with
    | error f => rw [hl] at h1; simp at h1
    | ok m => rw [hl] at h1; cases h1; exact ⟨rfl, rfl, rfl⟩
  have hst : (Store.mk fs.table hash st.stash) = st := by
    rw [← hload.2.1, ← hload.2.2]
  -- a search is a lookup per block
  have hrun : ∀ (c : Map W UInt32) (w : W) (f : Nat → List Index),
      (∀ i, i < ((c w).getD 0).toNat → st.getList enc (deriveCoreKey H (prf w) i) = .ok (f i)) →
      schemeSearch hash prf H enc fs c w = .ok ((List.range ((c w).getD 0).toNat).flatMap f) := by
    intro c w f hf
    obtain ⟨ps, h7, h8⟩ := search_blocks H ⟨fs.table, hash, Map.empty⟩ st.stash
      (⟨st.stash, c, prf, enc⟩ : Client W) rfl (prf w) (List.range ((c w).getD 0).toNat) f (by
        intro i hi
        simp only
        rw [hst]
        exact hf i (List.mem_range.mp hi))
    unfold schemeSearch Client.open
    rw [hload.1]
    simp only [Store.open, loadStash]
    unfold serverSearch Client.searchRequest
    simp only
    rw [h7]
    simp only
    exact h8
  -- keys outside of the index
  have hunused : ∀ (w : W) (lo hi : Nat), Spec.Unused page prf H index (prf w) lo hi →
      ∀ i, lo ≤ i → i < hi → st.getList enc (deriveCoreKey H (prf w) i) = .ok [] := by
    intro w lo hi h i h4 h5
    apply h3
    intro y hy _ he
    obtain ⟨a, ha, hya⟩ := mem_blocksOf_fst hm prf H index hy
    rw [hya, deriveCoreKey_input] at he
    exact h i h4 h5 a ha he.symm
  refine ⟨b0, fs, hb0, hbuild, by rw [htab]; simp, ?_, by rw [hpg], ?_⟩
  · intro p hp
    rw [htab] at hp
    obtain ⟨v, hv, rfl⟩ := List.mem_map.mp hp
    rw [seal_length]
    unfold pageOf
    have := hcs v (List.mem_range.mp hv)
    simp only [List.length_append, List.length_replicate]
    omega
  · intro c w
    constructor
    · rintro x hx rfl k hk hun
      have hcl := cut_length hm (block := []) (ids := x.2) (by simpa using hm)
      simp only [List.length_nil, Nat.zero_add] at hcl
      have hblk : ∀ i, i < (cut (page / 8 - 6) [] x.2).length → ∃ r,
          st.getList enc (deriveCoreKey H (prf x.1) i) = .ok r ∧
          ∀ b, (cut (page / 8 - 6) [] x.2)[i]? = some b → r.Subperm b ∧
            ((∀ y ∈ index, y.2.length % (page / 8 - 6) ≠ 0) → r.Perm b) := by
        intro i hi
        have hb := List.getElem?_eq_getElem hi
        have hmem := keyed_get (deriveCoreKey H (prf x.1)) 0 _ i _ hb
        rw [Nat.zero_add] at hmem
        have hmem' : (deriveCoreKey H (prf x.1) i, (cut (page / 8 - 6) [] x.2)[i]) ∈
            blocksOf page prf H index := List.mem_flatMap.mpr ⟨x, hx, hmem⟩
        obtain ⟨r, h4, h5, h6⟩ := h2 _ hmem' (decide_eq_true (hfits _ hmem'))
        refine ⟨r, h4, ?_⟩
        intro b hb'
        rw [hb] at hb'
        cases hb'
        refine ⟨h5, fun hne => h6 ?_⟩
        intro y hy _
        obtain ⟨z, hz, hy⟩ := List.mem_flatMap.mp hy
        exact cut_ne_nil hm (block := []) (ids := z.2) (by simpa using hm)
          (by simpa using hne z hz) _ (mem_keyed hy)
      let f : Nat → List Index := fun i => match st.getList enc (deriveCoreKey H (prf x.1) i) with
        | .ok r => r
        | .error _ => []
      have hf : ∀ i, i < k.toNat → st.getList enc (deriveCoreKey H (prf x.1) i) = .ok (f i) := by
        intro i hi
        by_cases hlt : i < (cut (page / 8 - 6) [] x.2).length
        · obtain ⟨r, hr, -⟩ := hblk i hlt
          simp only [f]
          rw [hr]
        · have := hunused x.1 _ _ hun i (by unfold Spec.blockCount; omega) hi
          simp only [f]
          rw [this]
      let xs := (cut (page / 8 - 6) [] x.2).take k.toNat ++
        List.replicate (k.toNat - (cut (page / 8 - 6) [] x.2).length) ([] : List Index)
      have hxl : xs.length = k.toNat := by
        simp only [xs, List.length_append, List.length_take, List.length_replicate]
        omega
      have hxf : xs.flatten = x.2.take (k.toNat * (page / 8 - 6)) := by
        simp only [xs, List.flatten_append, List.flatten_replicate_nil, List.append_nil]
        rw [cut_take hm x.2 [] (by simpa using hm), List.nil_append]
      have hf2 : ∀ (i : Nat) b, xs[i]? = some b → (f (0 + i)).Subperm b ∧
            ((∀ y ∈ index, y.2.length % (page / 8 - 6) ≠ 0) → (f (0 + i)).Perm b) := by
        intro i b hb
        have hi := (List.getElem?_eq_some_iff.mp hb).1
        rw [hxl] at hi
        rw [Nat.zero_add]
        by_cases hlt : i < (cut (page / 8 - 6) [] x.2).length
        · obtain ⟨r, hr, hrb⟩ := hblk i hlt
          have : f i = r := by simp only [f]; rw [hr]
          rw [this]
          apply hrb
          simp only [xs] at hb
          rw [List.getElem?_append_left (by rw [List.length_take]; omega), List.getElem?_take_of_lt hi] at hb
          exact hb
        · have h6 := hunused x.1 _ _ hun i (by unfold Spec.blockCount; omega) hi
          have : f i = [] := by simp only [f]; rw [h6]
          rw [this]
          simp only [xs] at hb
          rw [List.getElem?_append_right (by rw [List.length_take]; omega), List.getElem?_replicate] at hb
          split at hb
          · cases hb
            exact ⟨List.Subperm.refl _, fun _ => List.Perm.refl _⟩
          · cases hb
      refine ⟨_, hrun c x.1 f (by rw [hk]; exact hf), ?_, ?_⟩
      · rw [hk, Option.getD_some, List.range_eq_range', ← hxl]
        have := subperm_flatMap_range' xs 0 f (fun i b hb => (hf2 i b hb).1)
        rw [hxf] at this
        rw [hxl] at this ⊢
        exact this
      · intro hne
        rw [hk, Option.getD_some, List.range_eq_range']
        have := perm_flatMap_range' xs 0 f (fun i b hb => (hf2 i b hb).2 hne)
        rw [hxf, hxl] at this
        exact this
    · intro hun
      rw [hrun c w (fun _ => []) (by
        intro i hi
        cases hc : c w with
        | none => rw [hc] at hi; simp at hi
        | some k =>
          rw [hc] at hi
          exact hunused w 0 k.toNat (hun k hc) i (Nat.zero_le _) hi)]
      simp

end Verif.Tethys
