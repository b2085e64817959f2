import Verif.Pluto.RepeatProps
import Verif.Oceanus.BuildAny

/-!
# C59: keywords given several times to the Pluto builder, with the cuckoo table

With the default parameters (`/repo/lib/include/sse/schemes/pluto/types.hpp` L78-130) the full blocks are in a cuckoo table.
`CuckooBuilder::insert` (`/repo/lib/include/sse/schemes/oceanus/cuckoo.hpp` L147-178) does not look whether the key is in the
table: two blocks with the same key fill the two cells of this key, and a third one makes the table spill a block, which may be
one of another keyword.
-/

namespace Verif.Pluto

open Tethys (CoreKey Token deriveCoreKey ValueEncoder listsOf)

variable {W : Type} {N : Nat}

/-! ## The table -/

theorem cuckoo_any (size depth : Nat) (kvs : List (CoreKey × Vector Index N)) (hs : 0 < size)
    (hl : kvs.length < 2 ^ 64) :
    ∃ b t, (cuckoo N size depth).insertAll (cuckoo N size depth).new kvs = .ok b ∧
      (cuckoo N size depth).commit b = .ok t ∧
      (∀ k, k ≠ Oceanus.Spec.allOnes → (cuckoo N size depth).get t k = .error .outOfRange ∨
        ∃ v, (k, v) ∈ kvs ∧ (cuckoo N size depth).get t k = .ok v) ∧
      (Oceanus.spilled size depth Oceanus.oceanusHash (kvs.map (fun x => (x.1, serializeValue x.2))) = [] →
        ∀ x ∈ kvs, ∃ v, (x.1, v) ∈ kvs ∧ (cuckoo N size depth).get t x.1 = .ok v) := by
  have key : ∀ (kvs : List (CoreKey × Vector Index N)) (b : Oceanus.Builder (8 * N)),
      (cuckoo N size depth).insertAll b kvs =
        b.insertAll (kvs.map (fun x => (x.1, serializeValue x.2))) := by
    intro kvs
    induction kvs with
    | nil => intro b; rfl
    | cons x kvs ih =>
      intro b
      simp only [List.map_cons, Oceanus.Builder.insertAll]
      rw [insertAll_cons]
      cases hi : b.insert x.1 (serializeValue x.2) with
      | error f =>
        have : (cuckoo N size depth).insert b x.1 x.2 = .error f := hi
        rw [this]
      | ok b' =>
        have : (cuckoo N size depth).insert b x.1 x.2 = .ok b' := hi
        rw [this]
        exact ih b'
  obtain ⟨t, h1, h2, h3⟩ := Oceanus.build_any size depth Oceanus.oceanusHash
    (kvs.map (fun x => (x.1, serializeValue x.2))) hs (by simpa using hl)
  have hval : ∀ k y, y ∈ kvs.map (fun x => (x.1, serializeValue x.2)) → y.1 = k → t.get k = .ok y.2 →
      ∃ v, (k, v) ∈ kvs ∧ (cuckoo N size depth).get t k = .ok v := by
    intro k y hy hyk hg
    obtain ⟨x, hx, rfl⟩ := List.mem_map.mp hy
    refine ⟨x.2, by rw [← hyk]; exact hx, ?_⟩
    show (match t.get k with | .error f => _ | .ok p => _) = _
    rw [hg]
    simp [deserialize_serialize]
  unfold Oceanus.build at h1
  cases hb : (Oceanus.Builder.new (8 * N) size depth Oceanus.oceanusHash).insertAll
      (kvs.map (fun x => (x.1, serializeValue x.2))) with
  | error f => rw [hb] at h1; cases h1
  | ok b =>
    rw [hb] at h1
    dsimp only at h1
    have hcommit : (cuckoo N size depth).commit b = .ok t := by
      show (match b.commit with
        | .error f => Except.error f
        | .ok file => Oceanus.Table.open Oceanus.oceanusHash file) = _
      cases hc : b.commit with
      | error f => rw [hc] at h1; cases h1
      | ok file => rw [hc] at h1; exact h1
    refine ⟨b, t, (key _ _).trans hb, hcommit, ?_, ?_⟩
    · intro k hone
      rcases h3 k hone with h | ⟨y, hy, hyk, hg⟩
      · left
        show (match t.get k with | .error f => _ | .ok p => _) = _
        rw [h]
      · exact .inr (hval k y hy hyk hg)
    · intro hsp x hx
      obtain ⟨i, hi⟩ := List.getElem?_of_mem hx
      obtain ⟨y, hy, hyx, hg⟩ := h2 i (x.1, serializeValue x.2) (by rw [List.getElem?_map, hi]; rfl)
        (by rw [hsp]; simp)
      exact hval x.1 y hy hyx hg

/-! ## Blocks and zeros -/

theorem fullBlocks_padded {L : Nat} (key : Nat → CoreKey) (ids : List Index) :
    ∀ (block : List Index) (c : Nat), ∀ y ∈ fullBlocks N L key ids block c,
      ∃ blk : List Index, blk.length = L ∧ y.2 = padded N blk := by
  induction ids with
  | nil => intro block c y hy; cases hy
  | cons id ids ih =>
    intro block c y hy
    unfold fullBlocks at hy
    split at hy
    · rename_i hl
      rcases List.mem_cons.mp hy with rfl | hy
      · exact ⟨_, hl, rfl⟩
      · exact ih _ _ y hy
    · exact ih _ _ y hy

theorem split_zeros {α : Type} (l : List α) (f g : α → List Index)
    (h : ∀ a ∈ l, f a = g a ++ List.replicate 4 0) :
    (l.flatMap f).Perm (l.flatMap g ++ List.replicate (4 * l.length) 0) := by
  induction l with
  | nil => simp
  | cons a l ih =>
    rw [List.flatMap_cons, List.flatMap_cons, h a (List.mem_cons_self ..), List.length_cons, Nat.mul_succ, Nat.add_comm,
      List.replicate_add]
    have ih := ih (fun b hb => h b (List.mem_cons_of_mem _ hb))
    rw [List.append_assoc, List.append_assoc]
    refine List.Perm.append_left _ ?_
    refine (List.Perm.append_left _ ih).trans ?_
    rw [← List.append_assoc, ← List.append_assoc]
    exact List.Perm.append_right _ List.perm_append_comm

theorem length_flatMap_const {α : Type} (l : List α) (f : α → List Index) (m : Nat) (h : ∀ a ∈ l, (f a).length = m) :
    (l.flatMap f).length = l.length * m := by
  induction l with
  | nil => simp
  | cons a l ih =>
    rw [List.flatMap_cons, List.length_append, ih (fun b hb => h b (List.mem_cons_of_mem _ hb)),
      h a (List.mem_cons_self ..), List.length_cons, Nat.succ_mul, Nat.add_comm]

/-! ## The server -/

section
variable {page size : Nat} {prf : W → Token} {H : List UInt8 → CoreKey} {n : UInt64} {rand : Nat → CoreKey}
  {index : List (W × List Index)}

/-- The blocks the server returns for a keyword: one for each number up to the first that is missing, each from
one of the lists -/
theorem server_any {ht : HashTable N} {t : ht.T} (h : Spec.RepeatOk page size prf H n rand index)
    {x : W × List Index} (hx : x ∈ index)
    (hmax : ∀ y ∈ index, y.1 = x.1 → y.2.length / (page / 8 - 6) ≤ x.2.length / (page / 8 - 6))
    (hget : ∀ i ≤ x.2.length / (page / 8 - 6),
      ht.get t (deriveCoreKey H (prf x.1) (1 + i)) = .error .outOfRange ∨
        ∃ v, (deriveCoreKey H (prf x.1) (1 + i), v) ∈ entriesOf N page prf H n rand index ∧
          ht.get t (deriveCoreKey H (prf x.1) (1 + i)) = .ok v)
    {fuel : Nat} (hfuel : x.2.length / (page / 8 - 6) < fuel) :
    ∃ vs : List (Vector Index N), vs.length ≤ x.2.length / (page / 8 - 6) ∧
      serverLoop ht t (deriveCoreKey H (prf x.1)) fuel 1 = .ok (vs.flatMap Vector.toList) ∧
      ht.get t (deriveCoreKey H (prf x.1) (1 + vs.length)) = .error .outOfRange ∧
      ∀ (j : Nat) v, vs[j]? = some v → ∃ z ∈ index, z.1 = x.1 ∧
        ((fullBlocks N (page / 8 - 6) (keyOf prf H z.1) z.2 [] 1)[j]?).map Prod.snd = some v := by
  have hm : 0 < page / 8 - 6 := by have := h.room; omega
  have hend : ht.get t (deriveCoreKey H (prf x.1) (1 + x.2.length / (page / 8 - 6))) = .error .outOfRange := by
    rcases hget _ (Nat.le_refl _) with hg | ⟨v, hv, -⟩
    · exact hg
    · exfalso
      obtain ⟨z, hz, hzx, -, h2⟩ := (mem_entries h hx (i := 1 + x.2.length / (page / 8 - 6)) (by omega)).mp hv
      obtain ⟨y, hy, -⟩ := Option.map_eq_some_iff.mp h2
      have hlt := (List.getElem?_eq_some_iff.mp hy).1
      rw [length_fullBlocks hm _ z.2 [] 1 hm] at hlt
      have := hmax z hz hzx
      simp at hlt
      omega
  -- the first missing block
  have hfirst : ∀ d, d ≤ x.2.length / (page / 8 - 6) →
      ∃ vs : List (Vector Index N), vs.length ≤ x.2.length / (page / 8 - 6) ∧
        (ht.get t (deriveCoreKey H (prf x.1) (1 + vs.length)) = .error .outOfRange ∨ vs.length = d) ∧
        ∀ (j : Nat) v, vs[j]? = some v → ht.get t (deriveCoreKey H (prf x.1) (1 + j)) = .ok v ∧
          (deriveCoreKey H (prf x.1) (1 + j), v) ∈ entriesOf N page prf H n rand index := by
    intro d
    induction d with
    | zero => intro _; exact ⟨[], by simp, .inr rfl, by simp⟩
    | succ d ih =>
      intro hd
      obtain ⟨vs, h1, h2, h3⟩ := ih (by omega)
      rcases h2 with h2 | h2
      · exact ⟨vs, h1, .inl h2, h3⟩
      · rcases hget d (by omega) with hg | ⟨v, hv, hg⟩
        · exact ⟨vs, h1, .inl (by rw [h2]; exact hg), h3⟩
        · refine ⟨vs ++ [v], by simp; omega, .inr (by simp; omega), ?_⟩
          intro j u hj
          rcases Nat.lt_or_ge j vs.length with hlt | hge
          · rw [List.getElem?_append_left hlt] at hj
            exact h3 j u hj
          · rw [List.getElem?_append_right hge] at hj
            have hlt := (List.getElem?_eq_some_iff.mp hj).1
            have hjv : j = d := by simp at hlt; omega
            subst hjv
            rw [h2, Nat.sub_self] at hj
            cases hj
            exact ⟨hg, hv⟩
  obtain ⟨vs, h1, h2, h3⟩ := hfirst _ (Nat.le_refl _)
  have h4 : ht.get t (deriveCoreKey H (prf x.1) (1 + vs.length)) = .error .outOfRange := by
    rcases h2 with h2 | h2
    · exact h2
    · rw [h2]; exact hend
  have hc := h.counters x hx
  refine ⟨vs, h1, ?_, h4, ?_⟩
  · exact serverLoop_spec vs 1 fuel (by omega) (by omega) (fun j v hv => (h3 j v hv).1) h4
  · intro j v hv
    have hj := (List.getElem?_eq_some_iff.mp hv).1
    obtain ⟨z, hz, hzx, -, h5⟩ := (mem_entries h hx (i := 1 + j) (by omega)).mp (h3 j v hv).2
    refine ⟨z, hz, hzx, ?_⟩
    rwa [show 1 + j - 1 = j by omega] at h5

end

variable [DecidableEq W]

/-- The general statement, with `N - L` zeros at the end of each full block -/
theorem repeat_cuckoo (page size tsize depth : Nat) (hash : CoreKey → UInt64 × UInt64) (prf : W → Token)
    (H : List UInt8 → CoreKey) (enc : ValueEncoder) (n : UInt64) (rand : Nat → CoreKey)
    (index : List (W × List Index)) (hok : Spec.RepeatOk page size prf H n rand index) (ht : 0 < tsize)
    (hlen : (Spec.blocks page prf H n rand index).length < 2 ^ 64) :
    ∃ t fs, schemeBuild (cuckoo (cuckooLength page) tsize depth) page size (defaultLength page) hash prf H enc n
        rand index = .ok (t, fs) ∧
      ∀ x ∈ index, (∀ y ∈ index, y.1 = x.1 → y.2.length / defaultLength page ≤ x.2.length / defaultLength page) →
        (∀ i ≤ x.2.length / defaultLength page, deriveCoreKey H (prf x.1) (1 + i) ≠ Oceanus.Spec.allOnes) →
        ∀ fuel, x.2.length / defaultLength page < fuel →
        ∃ r, schemeSearch (cuckoo (cuckooLength page) tsize depth) hash prf H enc t fs fuel x.1 = .ok r ∧
          (∃ m ≤ x.2.length / defaultLength page, ∃ r', r.Perm (r' ++ List.replicate (4 * m) 0) ∧
            r'.Subperm (Tethys.Spec.docs index x.1) ∧
            r'.length ≤ m * defaultLength page +
              ((listsOf index x.1).map (fun z => z.2.length % defaultLength page)).sum) ∧
          (Oceanus.spilled tsize depth Oceanus.oceanusHash (Spec.blocks page prf H n rand index) = [] →
            (listsOf index x.1).length = 1 →
              r.Perm (x.2 ++ List.replicate (4 * (x.2.length / defaultLength page)) 0)) := by
  have hroom := hok.room
  rw [defaultLength_eq hroom]
  have hm : 0 < page / 8 - 6 := by omega
  have hN : cuckooLength page = page / 8 - 6 + 4 := by unfold cuckooLength; omega
  obtain ⟨b, t, hins, hcommit, hget, hall⟩ := cuckoo_any tsize depth
    (entriesOf (cuckooLength page) page prf H n rand index) ht (by simpa [Spec.blocks] using hlen)
  obtain ⟨fs, hbuild, hsearch⟩ := build_search (cuckoo (cuckooLength page) tsize depth) hash enc hok.buckets hok.aligned
    hok.small hok.room hok.total hins hcommit
  refine ⟨t, fs, hbuild, fun x hx hmax hgood fuel hfuel => ?_⟩
  obtain ⟨vs, hvl, hserver, hnext, hvs⟩ := server_any (ht := cuckoo (cuckooLength page) tsize depth) hok hx hmax
    (fun i hi => hget _ (hgood i hi)) hfuel
  obtain ⟨last, h1, h2, h3⟩ := hsearch x.1
  rw [storeLists_filter hok hx] at h2 h3
  rw [storeLists_docs] at h2 h3
  -- the blocks of a list, without the zeros
  let cut : Vector Index (cuckooLength page) → List Index := fun v => v.toList.take (page / 8 - 6)
  have hpad : ∀ (z : W × List Index) (y : CoreKey × Vector Index (cuckooLength page)),
      y ∈ fullBlocks (cuckooLength page) (page / 8 - 6) (keyOf prf H z.1) z.2 [] 1 →
      y.2.toList = cut y.2 ++ List.replicate 4 0 ∧ (cut y.2).length = page / 8 - 6 := by
    intro z y hy
    obtain ⟨blk, hblk, hyb⟩ := fullBlocks_padded (keyOf prf H z.1) z.2 [] 1 y hy
    have hpt := padded_toList (N := cuckooLength page) (block := blk) (by omega)
    rw [hblk, show cuckooLength page - (page / 8 - 6) = 4 by omega] at hpt
    have hcut : cut y.2 = blk := by
      simp only [cut]
      rw [hyb, hpt, List.take_append_of_le_length (by omega), List.take_of_length_le (by omega)]
    rw [hcut, hyb]
    exact ⟨hpt, hblk⟩
  have hperm : ∀ z : W × List Index,
      ((fullBlocks (cuckooLength page) (page / 8 - 6) (keyOf prf H z.1) z.2 [] 1).flatMap (fun y => cut y.2) ++
        lastBlock (page / 8 - 6) z.2 []).Perm z.2 := by
    intro z
    have h4 := blocks_perm (N := cuckooLength page) (L := page / 8 - 6) (by omega) (keyOf prf H z.1) z.2 [] 1
    rw [show cuckooLength page - (page / 8 - 6) = 4 by omega, List.nil_append] at h4
    have h5 := split_zeros (fullBlocks (cuckooLength page) (page / 8 - 6) (keyOf prf H z.1) z.2 [] 1)
      (fun y => y.2.toList) (fun y => cut y.2) (fun y hy => (hpad z y hy).1)
    have h6 := (h5.append_right (lastBlock (page / 8 - 6) z.2 [])).symm.trans h4
    have h7 : (((fullBlocks (cuckooLength page) (page / 8 - 6) (keyOf prf H z.1) z.2 [] 1).flatMap
        (fun y => cut y.2) ++ lastBlock (page / 8 - 6) z.2 []) ++
        List.replicate (4 * (fullBlocks (cuckooLength page) (page / 8 - 6) (keyOf prf H z.1) z.2 [] 1).length)
          (0 : Index)).Perm (z.2 ++ List.replicate
        ((fullBlocks (cuckooLength page) (page / 8 - 6) (keyOf prf H z.1) z.2 [] 1).length * 4) 0) := by
      refine List.Perm.trans ?_ h6
      rw [List.append_assoc, List.append_assoc]
      exact List.Perm.append_left _ List.perm_append_comm
    rw [Nat.mul_comm 4] at h7
    exact (List.perm_append_right_iff _).mp h7
  have hflen : ∀ z : W × List Index,
      (fullBlocks (cuckooLength page) (page / 8 - 6) (keyOf prf H z.1) z.2 [] 1).length =
        z.2.length / (page / 8 - 6) := by
    intro z
    rw [length_fullBlocks hm _ z.2 [] 1 hm]; simp
  have hxl : x ∈ listsOf index x.1 := by
    unfold listsOf; rw [List.mem_filter, decide_eq_true_eq]; exact ⟨hx, rfl⟩
  have hvmem : ∀ v ∈ vs, v.toList = cut v ++ List.replicate 4 0 ∧ (cut v).length = page / 8 - 6 := by
    intro v hv
    obtain ⟨j, hj⟩ := List.getElem?_of_mem hv
    obtain ⟨z, hz, -, h4⟩ := hvs j v hj
    obtain ⟨y, hy, rfl⟩ := Option.map_eq_some_iff.mp h4
    exact hpad z y (List.mem_of_getElem? hy)
  have hzeros : (vs.flatMap Vector.toList).Perm (vs.flatMap cut ++ List.replicate (4 * vs.length) 0) :=
    split_zeros vs _ _ (fun v hv => (hvmem v hv).1)
  let blk : W × List Index → Nat → List Index := fun z j =>
    (((fullBlocks (cuckooLength page) (page / 8 - 6) (keyOf prf H z.1) z.2 [] 1).map (fun y => cut y.2))[j]?).getD []
  have hvsb : ∀ (j : Nat) v, vs[j]? = some v → ∃ z ∈ listsOf index x.1, cut v = blk z j := by
    intro j v hv
    obtain ⟨z, hz, hzx, h4⟩ := hvs j v hv
    refine ⟨z, by unfold listsOf; rw [List.mem_filter, decide_eq_true_eq]; exact ⟨hz, hzx⟩, ?_⟩
    obtain ⟨y, hy, rfl⟩ := Option.map_eq_some_iff.mp h4
    simp only [blk]
    rw [List.getElem?_map, hy]
    rfl
  have hflat : vs.flatMap cut = (List.range vs.length).flatMap (fun j => ((vs.map cut)[j]?).getD []) := by
    rw [Tethys.range_flatMap_take, List.take_of_length_le (by simp), List.flatMap_def]
  have hblkall : ∀ z ∈ listsOf index x.1,
      ((List.range vs.length).flatMap (blk z)).Sublist
        ((fullBlocks (cuckooLength page) (page / 8 - 6) (keyOf prf H z.1) z.2 [] 1).flatMap (fun y => cut y.2)) := by
    intro z hz
    simp only [blk]
    rw [Tethys.range_flatMap_take, List.flatMap_def]
    exact (List.take_sublist _ _).flatten
  have hflatsub : (vs.flatMap cut).Subperm ((listsOf index x.1).flatMap (fun z =>
      (fullBlocks (cuckooLength page) (page / 8 - 6) (keyOf prf H z.1) z.2 [] 1).flatMap (fun y => cut y.2))) := by
    rw [hflat]
    have hsub := Tethys.subperm_flatMap (List.range vs.length)
      (fun j => ((vs.map cut)[j]?).getD []) (fun j => (listsOf index x.1).flatMap (fun z => blk z j)) (by
        intro j hj
        have hj := List.mem_range.mp hj
        obtain ⟨z, hz, h4⟩ := hvsb j vs[j] (List.getElem?_eq_getElem hj)
        rw [List.getElem?_map, List.getElem?_eq_getElem hj]
        simp only [Option.map_some, Option.getD_some]
        rw [h4, List.subperm_ext_iff]
        intro a _
        exact Tethys.count_le_flatMap (listsOf index x.1) (fun z => blk z j) hz a)
    refine hsub.trans ((Tethys.flatMap_swap _ _ (fun j z => blk z j)).subperm.trans ?_)
    exact Tethys.subperm_flatMap _ _ _ (fun z hz => (hblkall z hz).subperm)
  have hres : (last ++ vs.flatMap Vector.toList).Perm ((last ++ vs.flatMap cut) ++ List.replicate (4 * vs.length) 0) := by
    rw [List.append_assoc]
    exact List.Perm.append_left _ hzeros
  refine ⟨_, h1 fuel _ hserver, ⟨vs.length, hvl, last ++ vs.flatMap cut, hres, ?_, ?_⟩, ?_⟩
  · refine (h2.append hflatsub).trans (List.Perm.subperm ?_)
    unfold Tethys.Spec.docs
    change List.Perm _ ((listsOf index x.1).flatMap Prod.snd)
    refine List.perm_append_comm.trans ((List.flatMap_append_perm _ _ _).trans ?_)
    exact Tethys.perm_flatMap _ _ _ (fun z _ => hperm z)
  · rw [List.length_append, Nat.add_comm]
    refine Nat.add_le_add ?_ ?_
    · exact Nat.le_of_eq (length_flatMap_const vs cut _ (fun v hv => (hvmem v hv).2))
    · refine Nat.le_trans h2.length_le (Nat.le_of_eq ?_)
      rw [List.length_flatMap]
      congr 1
      apply List.map_congr_left
      intro z _
      have h5 := (hperm z).length_eq
      have h6 := length_flatMap_const (fullBlocks (cuckooLength page) (page / 8 - 6) (keyOf prf H z.1) z.2 [] 1)
        (fun y => cut y.2) _ (fun y hy => (hpad z y hy).2)
      rw [List.length_append, h6, hflen z] at h5
      have h7 := Nat.div_add_mod z.2.length (page / 8 - 6)
      rw [Nat.mul_comm] at h7
      omega
  · intro hsp hone
    obtain ⟨y, hy⟩ := List.length_eq_one_iff.mp hone
    have hyx : y = x := by rw [hy] at hxl; exact (List.mem_singleton.mp hxl).symm
    subst hyx
    have hvlen : vs.length = y.2.length / (page / 8 - 6) := by
      rcases Nat.lt_or_ge vs.length (y.2.length / (page / 8 - 6)) with hlt | hge
      · exfalso
        have hg := List.getElem?_eq_getElem
          (l := fullBlocks (cuckooLength page) (page / 8 - 6) (keyOf prf H y.1) y.2 [] 1) (i := vs.length)
          (by rw [hflen]; exact hlt)
        have hmem := (mem_entries (N := cuckooLength page) hok hx (i := 1 + vs.length) (by omega)
          (v := ((fullBlocks (cuckooLength page) (page / 8 - 6) (keyOf prf H y.1) y.2 [] 1)[vs.length]'(by
            rw [hflen]; exact hlt)).2)).mpr ⟨y, hx, rfl, by omega, by
              rw [show 1 + vs.length - 1 = vs.length by omega, hg]; rfl⟩
        obtain ⟨v, -, hv⟩ := hall hsp _ hmem
        rw [hnext] at hv
        cases hv
      · omega
    have hfull : vs.flatMap cut =
        (fullBlocks (cuckooLength page) (page / 8 - 6) (keyOf prf H y.1) y.2 [] 1).flatMap (fun z => cut z.2) := by
      have hb : (List.range vs.length).flatMap (blk y) =
          (fullBlocks (cuckooLength page) (page / 8 - 6) (keyOf prf H y.1) y.2 [] 1).flatMap (fun z => cut z.2) := by
        simp only [blk]
        rw [Tethys.range_flatMap_take, List.take_of_length_le, List.flatMap_def]
        rw [List.length_map, hflen, hvlen]
      rw [hflat, ← hb]
      apply List.flatMap_congr
      intro j hj
      have hj := List.mem_range.mp hj
      obtain ⟨z, hz, h4⟩ := hvsb j vs[j] (List.getElem?_eq_getElem hj)
      rw [hy] at hz
      rw [List.mem_singleton.mp hz] at h4
      rw [List.getElem?_map, List.getElem?_eq_getElem hj]
      exact h4
    refine hres.trans ?_
    rw [hvlen]
    refine List.Perm.append_right _ ?_
    rw [hfull]
    refine List.Perm.trans ?_ (hperm y)
    refine List.perm_append_comm.trans (List.Perm.append_left _ ?_)
    rw [hy] at h2 h3
    rw [List.flatMap_cons, List.flatMap_nil, List.append_nil] at h2 h3
    by_cases hl : (lastBlock (page / 8 - 6) y.2 []).length > 0
    · apply h3
      unfold storeLists
      rw [List.flatMap_cons, if_pos hl]
      rfl
    · have hnil : lastBlock (page / 8 - 6) y.2 [] = [] := List.eq_nil_of_length_eq_zero (by omega)
      rw [hnil] at h2 ⊢
      rw [List.subperm_nil.mp h2]

end Verif.Pluto
