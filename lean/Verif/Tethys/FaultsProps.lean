import Verif.Tethys.Faults
import Verif.Tethys.FilesProps

/-!
# Properties of Tethys with a counter database that fails (C72)
-/

namespace Verif.Tethys

open Spec

variable {W : Type} [DecidableEq W]

/-- One insertion -/
theorem insertList_spec {page n : Nat} {hash : CoreKey → UInt64 × UInt64} (hn : 2 ≤ n) {b0 : Builder}
    (hb0 : Builder.new page n hash = .ok b0) (hm : 0 < page / 8 - 6) (prf : W → Token)
    (H : List UInt8 → CoreKey) (x : W × List Index) (done : List (CoreKey × List Index)) (m : Map W UInt32)
    (hs : SmallEnough page (done ++ blocksOf page prf H [x])) :
    (SchemeBuilder.mk (b0.insertAll done) m).insertList prf H x.1 x.2 =
      (⟨b0.insertAll (done ++ blocksOf page prf H [x]), countersOf page [x] m⟩, .ok ()) := by
  have h := insertIndex_spec hn hb0 hm prf H [x] done m hs
  unfold SchemeBuilder.insertIndex at h
  split at h
  · cases h
  · rename_i b' hb'
    unfold SchemeBuilder.insertIndex at h
    rw [hb']
    exact Prod.ext (congrArg Prod.fst h) rfl

theorem blocksOf_append {W : Type} {page : Nat} {prf : W → Token} {H : List UInt8 → CoreKey} (xs ys : List (W × List Index)) :
    blocksOf page prf H (xs ++ ys) = blocksOf page prf H xs ++ blocksOf page prf H ys := by
  unfold blocksOf; simp

theorem insertsF_spec (P : Params W) {n : Nat} (hn : 2 ≤ n) {b0 : Builder}
    (hb0 : Builder.new P.page n P.hash = .ok b0) (hm : 0 < P.page / 8 - 6)
    (xs : List ((W × List Index) × Bool)) : ∀ (d : Disk W) (done : List (CoreKey × List Index)),
    SmallEnough P.page (done ++ blocksOf P.page P.prf P.H (xs.map Prod.fst)) →
    Sys.insertsF P ⟨d, some (b0.insertAll done)⟩ xs =
      (⟨{ d with counters := countersOf P.page ((xs.filter Prod.snd).map Prod.fst) d.counters },
        some (b0.insertAll (done ++ blocksOf P.page P.prf P.H (xs.map Prod.fst)))⟩,
        List.replicate xs.length (.ok ())) := by
  induction xs with
  | nil => intro d done _; simp [Sys.insertsF, blocksOf, countersOf]
  | cons x xs ih =>
    intro d done hs
    have hb : blocksOf P.page P.prf P.H ((x :: xs).map Prod.fst) =
        blocksOf P.page P.prf P.H [x.1] ++ blocksOf P.page P.prf P.H (xs.map Prod.fst) := by
      rw [← blocksOf_append]; rfl
    rw [hb, ← List.append_assoc] at hs
    have hone := insertList_spec hn hb0 hm P.prf P.H x.1 done d.counters (smallEnough_append_left hs)
    have hstep : Sys.step P ⟨d, some (b0.insertAll done)⟩ (.insert x.1.1 x.1.2) =
        (⟨{ d with counters := countersOf P.page [x.1] d.counters },
          some (b0.insertAll (done ++ blocksOf P.page P.prf P.H [x.1]))⟩, .ok ()) := by
      unfold Sys.step
      dsimp only
      rw [hone]
    obtain ⟨y, o⟩ := x
    have hF : Sys.insertF P ⟨d, some (b0.insertAll done)⟩ y.1 y.2 o =
        (⟨{ d with counters := if o then countersOf P.page [y] d.counters else d.counters },
          some (b0.insertAll (done ++ blocksOf P.page P.prf P.H [y]))⟩, .ok ()) := by
      unfold Sys.insertF
      rw [hstep]
      cases o <;> rfl
    rw [Sys.insertsF]
    dsimp only
    rw [hF]
    dsimp only
    rw [ih _ _ hs, hb, List.append_assoc]
    cases o <;> rfl

/-- The construction succeeds whatever the results of `set`. -/
theorem buildF_spec (P : Params W) (n : Nat) (xs : List ((W × List Index) × Bool))
    (hok : IndexOk P.page n P.prf P.H (xs.map Prod.fst)) (d : Disk W) (ht : d.table = []) (hst : d.stash = none) :
    ∃ fs b, Sys.buildF P ⟨d, none⟩ n xs =
        (⟨⟨fs.table.flatten, fs.stash, countersOf P.page ((xs.filter Prod.snd).map Prod.fst) d.counters⟩, some b⟩,
          List.replicate (xs.length + 2) (.ok ())) ∧
      fs.table.flatten ≠ [] ∧ pagesOf P.page fs.table.flatten = fs.table ∧
      ∀ (c : Map W UInt32) (w : W),
        (∀ x ∈ xs.map Prod.fst, x.1 = w → ∀ k, c w = some k →
          Unused P.page P.prf P.H (xs.map Prod.fst) (P.prf w) (blockCount P.page x.2.length) k.toNat →
          ∃ r, schemeSearch P.hash P.prf P.H P.enc fs c w = .ok r ∧
            r.Subperm (x.2.take (k.toNat * (P.page / 8 - 6))) ∧
            ((∀ y ∈ xs.map Prod.fst, y.2.length % (P.page / 8 - 6) ≠ 0) →
              r.Perm (x.2.take (k.toNat * (P.page / 8 - 6))))) ∧
        ((∀ k, c w = some k → Unused P.page P.prf P.H (xs.map Prod.fst) (P.prf w) 0 k.toNat) →
          schemeSearch P.hash P.prf P.H P.enc fs c w = .ok []) := by
  have hroom := hok.room
  have hm : 0 < P.page / 8 - 6 := by omega
  obtain ⟨b0, fs, h1, h2, h3, h4, h5, h6⟩ := search_counters P.page n P.hash P.prf P.H P.enc _ hok
  obtain ⟨b', h7⟩ := buildFiles_new _ P.enc none fs h2 (by rw [h5]; exact h4)
  have hs : SmallEnough P.page ([] ++ blocksOf P.page P.prf P.H (xs.map Prod.fst)) := by
    unfold SmallEnough
    rw [List.nil_append, sum_blocksOf hm]
    exact hok.total
  refine ⟨fs, b', ?_, ?_, pagesOf_flatten (by omega) _ h4, h6⟩
  · have hins := insertsF_spec P hok.buckets h1 hm xs d [] hs
    rw [List.nil_append, show b0.insertAll [] = b0 from rfl] at hins
    unfold Sys.buildF
    have hnew : Sys.step P (⟨d, none⟩ : Sys W) (.new n) = (⟨d, some b0⟩, .ok ()) := by
      unfold Sys.step
      dsimp only
      rw [h1]
    rw [hnew]
    dsimp only
    rw [hins]
    unfold Sys.step
    dsimp only
    rw [ht, hst, h7]
    refine Prod.ext rfl ?_
    show Except.ok () :: (List.replicate xs.length (.ok ()) ++ [.ok ()]) = _
    rw [← List.replicate_succ', ← List.replicate_succ]
  · have hl := flatten_length fs.table h4
    have := hok.buckets
    intro he
    rw [he, h3] at hl
    rcases Nat.mul_eq_zero.mp hl.symm with h | h <;> omega

/-! ## The theorems -/

/-- **C72** for Tethys, restricted to the keywords whose counter is stored: when some counters are not
stored, no call fails, and a search returns the documents of the list for the keywords whose counter is. -/
theorem C72_tethys_partial (P : Params W) (n : Nat) (xs : List ((W × List Index) × Bool)) (d : Disk W)
    (hok : IndexOk P.page n P.prf P.H (xs.map Prod.fst))
    (hmul : ∀ x ∈ xs.map Prod.fst, x.2.length % (P.page / 8 - 6) ≠ 0)
    (ht : d.table = []) (hst : d.stash = none) :
    (∀ o ∈ (Sys.buildF P ⟨d, none⟩ n xs).2, o = .ok ()) ∧
    ∀ x, (x, true) ∈ xs → ∃ r, (Sys.buildF P ⟨d, none⟩ n xs).1.disk.searchF P true x.1 = .ok r ∧ r.Perm x.2 := by
  have hroom := hok.room
  obtain ⟨fs, b, h1, h2, h3, h4⟩ := buildF_spec P n xs hok d ht hst
  rw [h1]
  refine ⟨fun o ho => List.eq_of_mem_replicate ho, ?_⟩
  intro x hx
  have hmem : x ∈ xs.map Prod.fst := List.mem_map.mpr ⟨_, hx, rfl⟩
  have hgood : x ∈ (xs.filter Prod.snd).map Prod.fst :=
    List.mem_map.mpr ⟨_, List.mem_filter.mpr ⟨hx, rfl⟩, rfl⟩
  have hkw : (((xs.filter Prod.snd).map Prod.fst).map Prod.fst).Nodup :=
    List.Nodup.sublist ((List.filter_sublist.map _).map _) hok.keywords
  unfold Disk.searchF
  rw [if_pos rfl, search_of rfl rfl h2 h3]
  dsimp only
  obtain ⟨r, h5, -, h6⟩ := (h4 _ x.1).1 x hmem rfl _ (countersOf_mem hkw d.counters hgood) (by
    intro i h7 h8
    rw [ofNat_blockCount hok hmem] at h8
    omega)
  refine ⟨r, h5, ?_⟩
  have := h6 hmul
  rw [ofNat_blockCount hok hmem, take_blockCount (by omega)] at this
  exact this

/-- **C72** is false for Tethys when a counter is not stored: no call reports it, and the search of the
keyword returns nothing, although it has documents. -/
theorem C72_tethys_write_violated (P : Params W) (n : Nat) (xs : List ((W × List Index) × Bool)) (d : Disk W)
    (hok : IndexOk P.page n P.prf P.H (xs.map Prod.fst)) (ht : d.table = []) (hst : d.stash = none) :
    (∀ o ∈ (Sys.buildF P ⟨d, none⟩ n xs).2, o = .ok ()) ∧
    ∀ x, (x, false) ∈ xs → d.counters x.1 = none →
      (Sys.buildF P ⟨d, none⟩ n xs).1.disk.searchF P true x.1 = .ok [] := by
  obtain ⟨fs, b, h1, h2, h3, h4⟩ := buildF_spec P n xs hok d ht hst
  rw [h1]
  refine ⟨fun o ho => List.eq_of_mem_replicate ho, ?_⟩
  intro x hx hnone
  have hkw : (((xs.filter Prod.snd).map Prod.fst).map Prod.fst).Nodup :=
    List.Nodup.sublist ((List.filter_sublist.map _).map _) hok.keywords
  unfold Disk.searchF
  rw [if_pos rfl, search_of rfl rfl h2 h3]
  dsimp only
  apply (h4 _ x.1).2
  intro k hk
  rw [(countersOf_spec P.page _ d.counters hkw x.1).2, hnone] at hk
  · cases hk
  · intro y hy he
    obtain ⟨⟨y', o⟩, hy', rfl⟩ := List.mem_map.mp hy
    obtain ⟨hmem, ho⟩ := List.mem_filter.mp hy'
    simp only at he ho
    subst ho
    have h5 : y' = x := List.inj_on_of_nodup_map hok.keywords (List.mem_map.mpr ⟨_, hmem, rfl⟩)
      (List.mem_map.mpr ⟨_, hx, rfl⟩) he
    subst h5
    have hnd : (xs.map Prod.fst).Nodup := List.Nodup.of_map _ hok.keywords
    have := List.inj_on_of_nodup_map hnd hmem hx rfl
    cases this

/-- **C72** is false for Tethys when the counter cannot be read: the search returns nothing, without error,
whatever the documents of the keyword. -/
theorem C72_tethys_read_violated (P : Params W) (n : Nat) (xs : List ((W × List Index) × Bool)) (d : Disk W)
    (hok : IndexOk P.page n P.prf P.H (xs.map Prod.fst)) (ht : d.table = []) (hst : d.stash = none) (w : W) :
    (Sys.buildF P ⟨d, none⟩ n xs).1.disk.searchF P false w = .ok [] := by
  obtain ⟨fs, b, h1, h2, h3, h4⟩ := buildF_spec P n xs hok d ht hst
  rw [h1]
  unfold Disk.searchF
  rw [if_neg (by simp), search_of rfl rfl h2 h3]
  dsimp only
  apply (h4 _ w).2
  intro k hk
  rw [if_pos rfl] at hk
  cases hk

/-! ## Concrete cases -/

/-- The counter of the second keyword is not stored. -/
def Sample.unstored : List ((Nat × List Index) × Bool) := Sample.index.map (fun x => (x, x.1 != 2))

/-- The hypotheses of the theorems hold for an index with a counter that is not stored, and searches. -/
example : IndexOk Sample.params.page 2 Sample.params.prf Sample.params.H (Sample.unstored.map Prod.fst) ∧
    (∀ x ∈ Sample.unstored.map Prod.fst, x.2.length % (Sample.params.page / 8 - 6) ≠ 0) ∧
    ((2, [9, 10]), false) ∈ Sample.unstored ∧
    (((Sample.empty.buildF Sample.params 2 Sample.unstored).1.disk.searchF Sample.params true 1).toOption =
      some [1, 2, 3, 4, 5, 6, 7, 8]) ∧
    (((Sample.empty.buildF Sample.params 2 Sample.unstored).1.disk.searchF Sample.params true 2).toOption =
      some []) ∧
    (((Sample.empty.buildF Sample.params 2 Sample.unstored).1.disk.searchF Sample.params false 1).toOption =
      some []) := by
  have h : Sample.unstored.map Prod.fst = Sample.index := by decide
  rw [h]
  exact ⟨sample_index_ok, by decide, by decide, by decide +kernel, by decide +kernel, by decide +kernel⟩

end Verif.Tethys
