import Verif.Pluto.FaultsRun

/-!
# Properties of Pluto databases with failing writes and reads (C72)

The statements quantify over the parameters, the index, what is in the RocksDB database before, the calls
and those that fail, and the reads that fail.
-/

namespace Verif.Pluto

open Tethys (CoreKey Token deriveCoreKey ValueEncoder Params)

variable {W : Type}

/-- **C72** for Pluto, restricted to reads that succeed and to a RocksDB database without old blocks beyond
those of the lists: writes may fail, and calls that fail are repeated. When each list is inserted by one call
that succeeds, and `build` succeeds at last, the search of a keyword returns exactly its documents, and the
search of another keyword returns nothing. -/
theorem C72_pluto_partial (P : Params W) (size : Nat) (n : UInt64) (rand : Nat → CoreKey)
    (index : List (W × List Index)) (hok : Spec.IndexOk P.page size P.prf P.H n rand index)
    (d : Disk (P.page / 8 - 6)) (ht : d.table = []) (hst : d.stash = none) (es : List (Ev W)) (os : List Put)
    (s : Sys (P.page / 8 - 6)) (rs : List (Except DiskFault Unit))
    (hrun : Sys.run P ⟨d, none⟩ (.new size n :: (es ++ [.build rand os])) = (s, .ok () :: (rs ++ [.ok ()])))
    (hret : Spec.Retried P.page P.prf P.H index es rs) :
    (∀ x ∈ index, d.rocks (deriveCoreKey P.H (P.prf x.1) (x.2.length / (P.page / 8 - 6) + 1)) = none →
      ∀ fuel, x.2.length / (P.page / 8 - 6) < fuel →
      ∃ r, s.disk.search P (fun _ => false) fuel x.1 = .ok r ∧ r.Perm x.2) ∧
    ∀ w, Spec.Absent P.page P.prf P.H n rand index w → ¬ Spec.Drawn es (deriveCoreKey P.H (P.prf w) 1) →
      d.rocks (deriveCoreKey P.H (P.prf w) 1) = none → ∀ fuel, 0 < fuel →
      s.disk.search P (fun _ => false) fuel w = .ok [] := by
  obtain ⟨h1, h2⟩ := retried_search P size n rand index hok d ht hst es os s rs hrun hret
  refine ⟨?_, fun w hw hd hk fuel hf => h2 w hw hd hk _ fuel hf⟩
  intro x hx hk fuel hf
  obtain ⟨r, hr, hp⟩ := h1 x hx hk (fun _ => false) _ fuel (Nat.le_refl _) hf (fun _ _ => rfl) (Or.inl rfl)
  exact ⟨r, hr, by rw [List.take_append_drop] at hp; exact hp⟩

/-- **C72** for Pluto, without restriction on the reads: whichever fail, a search never returns a document
that the keyword does not have, nor one more often. -/
theorem C72_pluto_sound (P : Params W) (size : Nat) (n : UInt64) (rand : Nat → CoreKey)
    (index : List (W × List Index)) (hok : Spec.IndexOk P.page size P.prf P.H n rand index)
    (d : Disk (P.page / 8 - 6)) (ht : d.table = []) (hst : d.stash = none) (es : List (Ev W)) (os : List Put)
    (s : Sys (P.page / 8 - 6)) (rs : List (Except DiskFault Unit))
    (hrun : Sys.run P ⟨d, none⟩ (.new size n :: (es ++ [.build rand os])) = (s, .ok () :: (rs ++ [.ok ()])))
    (hret : Spec.Retried P.page P.prf P.H index es rs) (bad : CoreKey → Bool) :
    (∀ x ∈ index, d.rocks (deriveCoreKey P.H (P.prf x.1) (x.2.length / (P.page / 8 - 6) + 1)) = none →
      ∀ fuel, x.2.length / (P.page / 8 - 6) < fuel →
      ∃ r, s.disk.search P bad fuel x.1 = .ok r ∧ r.Subperm x.2) ∧
    ∀ w, Spec.Absent P.page P.prf P.H n rand index w → ¬ Spec.Drawn es (deriveCoreKey P.H (P.prf w) 1) →
      d.rocks (deriveCoreKey P.H (P.prf w) 1) = none → ∀ fuel, 0 < fuel →
      s.disk.search P bad fuel w = .ok [] := by
  obtain ⟨h1, h2⟩ := retried_search P size n rand index hok d ht hst es os s rs hrun hret
  refine ⟨?_, fun w hw hd hk fuel hf => h2 w hw hd hk _ fuel hf⟩
  intro x hx hk fuel hf
  -- the first read that fails
  have hfirst : ∀ b, ∃ j, j ≤ b ∧ (∀ i < j, bad (deriveCoreKey P.H (P.prf x.1) (i + 1)) = false) ∧
      (j = b ∨ bad (deriveCoreKey P.H (P.prf x.1) (j + 1)) = true) := by
    intro b
    induction b with
    | zero => exact ⟨0, Nat.le_refl _, by simp, Or.inl rfl⟩
    | succ b ih =>
      obtain ⟨j, h3, h4, h5⟩ := ih
      rcases h5 with rfl | h5
      · cases hb : bad (deriveCoreKey P.H (P.prf x.1) (j + 1)) with
        | true => exact ⟨j, by omega, h4, Or.inr hb⟩
        | false =>
          refine ⟨j + 1, Nat.le_refl _, ?_, Or.inl rfl⟩
          intro i hi
          rcases Nat.lt_succ_iff_lt_or_eq.mp hi with hi | rfl
          · exact h4 i hi
          · exact hb
      · exact ⟨j, by omega, h4, Or.inr h5⟩
  obtain ⟨j, h3, h4, h5⟩ := hfirst (x.2.length / (P.page / 8 - 6))
  obtain ⟨r, hr, hp⟩ := h1 x hx hk bad j fuel h3 hf h4 h5
  refine ⟨r, hr, hp.subperm.trans ?_⟩
  apply List.Sublist.subperm
  have h6 : (x.2.take (j * (P.page / 8 - 6))).Sublist
      (x.2.take (x.2.length / (P.page / 8 - 6) * (P.page / 8 - 6))) :=
    List.take_sublist_take_left (Nat.mul_le_mul_right _ h3)
  have := h6.append_right (x.2.drop (x.2.length / (P.page / 8 - 6) * (P.page / 8 - 6)))
  rwa [List.take_append_drop] at this

/-- **C72** is false for Pluto when a read fails: if the read of the block `j + 1` of a keyword fails, the search
returns the `j` blocks before and the last one, without error; documents are missing. -/
theorem C72_pluto_read_violated (P : Params W) (size : Nat) (n : UInt64) (rand : Nat → CoreKey)
    (index : List (W × List Index)) (hok : Spec.IndexOk P.page size P.prf P.H n rand index)
    (d : Disk (P.page / 8 - 6)) (ht : d.table = []) (hst : d.stash = none) (es : List (Ev W)) (os : List Put)
    (s : Sys (P.page / 8 - 6)) (rs : List (Except DiskFault Unit))
    (hrun : Sys.run P ⟨d, none⟩ (.new size n :: (es ++ [.build rand os])) = (s, .ok () :: (rs ++ [.ok ()])))
    (hret : Spec.Retried P.page P.prf P.H index es rs) (x : W × List Index) (hx : x ∈ index)
    (hk : d.rocks (deriveCoreKey P.H (P.prf x.1) (x.2.length / (P.page / 8 - 6) + 1)) = none)
    (bad : CoreKey → Bool) (j : Nat) (hj : j < x.2.length / (P.page / 8 - 6))
    (hgood : ∀ i < j, bad (deriveCoreKey P.H (P.prf x.1) (i + 1)) = false)
    (hbad : bad (deriveCoreKey P.H (P.prf x.1) (j + 1)) = true)
    (fuel : Nat) (hf : x.2.length / (P.page / 8 - 6) < fuel) :
    ∃ r, s.disk.search P bad fuel x.1 = .ok r ∧
      r.Perm (x.2.take (j * (P.page / 8 - 6)) ++
        x.2.drop (x.2.length / (P.page / 8 - 6) * (P.page / 8 - 6))) ∧ r.length < x.2.length := by
  have hroom := hok.room
  obtain ⟨r, hr, hp⟩ := (retried_search P size n rand index hok d ht hst es os s rs hrun hret).1 x hx hk bad j fuel
    (by omega) hf hgood (Or.inr hbad)
  refine ⟨r, hr, hp, ?_⟩
  rw [hp.length_eq, List.length_append, List.length_take, List.length_drop]
  have h1 : (j + 1) * (P.page / 8 - 6) ≤ x.2.length / (P.page / 8 - 6) * (P.page / 8 - 6) :=
    Nat.mul_le_mul_right _ hj
  have h2 := Nat.div_mul_le_self x.2.length (P.page / 8 - 6)
  rw [Nat.add_mul, Nat.one_mul] at h1
  omega

/-- When no insertion fails, the number of pairs of the RocksDB database is the same for all the indexes with
`n` documents, from an empty database: the dummy blocks hide the number of full blocks. -/
theorem C72_pluto_size (P : Params W) (size : Nat) (n : UInt64) (rand : Nat → CoreKey)
    (index : List (W × List Index)) (hok : Spec.IndexOk P.page size P.prf P.H n rand index)
    (hn : (index.map (fun x => x.2.length)).sum = n.toNat) (hpos : 0 < n.toNat)
    (es : List (Ev W)) (os : List Put)
    (s : Sys (P.page / 8 - 6)) (rs : List (Except DiskFault Unit))
    (hrun : Sys.run P ⟨⟨Map.empty, [], none⟩, none⟩ (.new size n :: (es ++ [.build rand os])) =
      (s, .ok () :: (rs ++ [.ok ()])))
    (hret : Spec.Retried P.page P.prf P.H index es rs) (hall : ¬ Spec.Failed es rs)
    (hbuild : ∀ rand os, Ev.build rand os ∉ es) :
    ∃ ks : List CoreKey, ks.Nodup ∧ ks.length = 1 + (n.toNat - 1) / (P.page / 8 - 6) ∧
      ∀ k, k ∈ ks ↔ s.disk.rocks k ≠ none := by
  have hroom := hok.room
  have hL : 0 < P.page / 8 - 6 := by omega
  obtain ⟨s0, fs, m, -, -, -, -, hs, hm1, hm2, hm3, -⟩ := retried_final P size n rand index hok _
    rfl rfl es os s rs hrun hret
  replace hm3 := hm3 (Or.inr hall)
  rw [hs]
  dsimp only
  refine ⟨(entriesOf (P.page / 8 - 6) P.page P.prf P.H n rand index).map Prod.fst, nodup_entries hok, ?_, ?_⟩
  · rw [List.length_map]
    unfold entriesOf
    rw [List.length_append, length_tableEntries hok, List.length_map]
    unfold Spec.dummies
    rw [List.length_map, List.length_range']
    have hlen : P.page / 8 - 6 < 2 ^ 64 := by
      have := hok.small
      omega
    have hfull : (nFullBlocks (P.page / 8 - 6) n).toNat = 1 + (n.toNat - 1) / (P.page / 8 - 6) := by
      unfold nFullBlocks
      have h1 : (UInt64.ofNat (P.page / 8 - 6)).toNat = P.page / 8 - 6 := by
        rw [UInt64.toNat_ofNat']; exact Nat.mod_eq_of_lt hlen
      have h2 : (n - 1).toNat = n.toNat - 1 := by
        rw [UInt64.toNat_sub_of_le]
        · rfl
        · rw [UInt64.le_iff_toNat_le]; exact hpos
      rw [UInt64.toNat_add, UInt64.toNat_div, h1, h2]
      have h3 := n.toNat_lt
      have h4 : (n.toNat - 1) / (P.page / 8 - 6) ≤ n.toNat - 1 := Nat.div_le_self _ _
      have h5 : (1 : UInt64).toNat = 1 := rfl
      rw [h5]
      exact Nat.mod_eq_of_lt (by omega)
    have hcount : ∀ l : List (W × List Index), Spec.fullCount (P.page / 8 - 6) l ≤
        (l.map (fun x => x.2.length)).sum / (P.page / 8 - 6) := by
      intro l
      induction l with
      | nil => simp [Spec.fullCount]
      | cons x l ih =>
        unfold Spec.fullCount at ih ⊢
        simp only [List.map_cons, List.sum_cons]
        refine Nat.le_trans (Nat.add_le_add_left ih _) ?_
        rw [Nat.le_div_iff_mul_le hL, Nat.add_mul]
        exact Nat.add_le_add (Nat.div_mul_le_self _ _) (Nat.div_mul_le_self _ _)
    have h6 := hcount index
    rw [hn] at h6
    have h7 : n.toNat / (P.page / 8 - 6) ≤ 1 + (n.toNat - 1) / (P.page / 8 - 6) := by
      have : n.toNat / (P.page / 8 - 6) ≤ (n.toNat - 1 + (P.page / 8 - 6)) / (P.page / 8 - 6) :=
        Nat.div_le_div_right (by omega)
      rw [Nat.add_div_right _ hL] at this
      omega
    rw [hfull]
    omega
  · intro k
    constructor
    · intro hk
      obtain ⟨y, hy, rfl⟩ := List.mem_map.mp hk
      rcases List.mem_append.mp hy with hy | hy
      · rw [hm1 y hy]; simp
      · obtain ⟨k, hd, rfl⟩ := List.mem_map.mp hy
        rw [hm3 k hd]; simp
    · intro hk
      by_contra hno
      apply hk
      rw [hm2 k]
      · rfl
      · intro y hy he
        exact hno (List.mem_map.mpr ⟨y, List.mem_append_left _ hy, he⟩)
      · rintro ⟨r, o, h, -⟩
        exact hbuild r o h
      · intro hd
        exact hno (List.mem_map.mpr ⟨(k, padded _ []), List.mem_append_right _ (List.mem_map.mpr ⟨k, hd, rfl⟩), rfl⟩)

/-! ## Concrete cases -/

namespace Sample

open Tethys.Sample (params)

/-- Nothing on disk -/
def empty : Sys 7 := ⟨⟨Map.empty, [], none⟩, none⟩

/-- Random keys of a call of `build` that fails -/
def rand' (i : Nat) : CoreKey := Vector.ofFn (fun j => if j.val = 14 then UInt8.ofNat (i + 1) else 0)

/-- The construction of `index`, with failing writes: the first insertion fails and its block is not written,
the first call of `build` fails and its block is written. -/
def retries : List (Ev Nat) :=
  [.insert 1 [1, 2, 3, 4, 5, 6, 7, 8] [.lost], .insert 1 [1, 2, 3, 4, 5, 6, 7, 8] [], .insert 2 [9, 10] [],
    .build rand' [.kept], .insert 3 [11, 12, 13, 14, 15, 16, 17] [.ok]]

/-- The outcomes -/
def outcomes : List (Except DiskFault Unit) := [.error .put, .ok (), .ok (), .error .put, .ok ()]

/-- The construction of an index without failure -/
def events (n : UInt64) (ix : List (Nat × List Index)) : List (Ev Nat) :=
  .new 2 n :: (ix.map (fun x => .insert x.1 x.2 []) ++ [.build rand []])

/-- The search of a keyword after some events -/
def after (es : List (Ev Nat)) (bad : CoreKey → Bool) (w : Nat) : Option (List Index) :=
  ((empty.run params es).1.disk.search params bad 10 w).toOption

end Sample

theorem Sample.rand'_mod (i : Nat) : Sample.rand' i = Sample.rand' (i % 256) := by
  unfold Sample.rand'
  have : UInt8.ofNat (i + 1) = UInt8.ofNat (i % 256 + 1) := by
    apply UInt8.toNat_inj.mp
    rw [UInt8.toNat_ofNat', UInt8.toNat_ofNat']
    omega
  rw [this]

theorem Sample.retried : Spec.Retried 104 Tethys.Sample.prf Tethys.Sample.H Sample.index Sample.retries
    Sample.outcomes where
  accepted := by decide +kernel
  calls := by
    have hfresh : ∀ i < 256, ∀ a ∈ Spec.inputs 7 Tethys.Sample.prf Sample.index,
        Tethys.Sample.H a ≠ Sample.rand' i := by decide +kernel
    intro p hp
    simp only [Sample.retries, Sample.outcomes, List.zip_cons_cons, List.zip_nil_left, List.mem_cons,
      List.not_mem_nil, or_false] at hp
    rcases hp with rfl | rfl | rfl | rfl | rfl
    · exact ⟨rfl, by decide⟩
    · trivial
    · trivial
    · refine ⟨rfl, fun i a ha => ?_⟩
      rw [Sample.rand'_mod]
      exact hfresh _ (Nat.mod_lt _ (by decide)) a ha
    · trivial

/-- The hypotheses of `C72_pluto_partial`, `C72_pluto_sound` and `C72_pluto_read_violated` hold for a
construction with failing writes, and searches: all the reads succeed, then the read of a block fails. -/
example : Spec.IndexOk 104 2 Tethys.Sample.prf Tethys.Sample.H 17 Sample.rand Sample.index ∧
    (Sample.empty.run Tethys.Sample.params (.new 2 17 :: (Sample.retries ++ [.build Sample.rand []]))).2 =
      .ok () :: (Sample.outcomes ++ [.ok ()]) ∧
    Spec.Retried 104 Tethys.Sample.prf Tethys.Sample.H Sample.index Sample.retries Sample.outcomes ∧
    Sample.after (.new 2 17 :: (Sample.retries ++ [.build Sample.rand []])) (fun _ => false) 1 =
      some [8, 1, 2, 3, 4, 5, 6, 7] ∧
    Sample.after (.new 2 17 :: (Sample.retries ++ [.build Sample.rand []]))
      (fun k => k == deriveCoreKey Tethys.Sample.H (Tethys.Sample.prf 1) 1) 1 = some [8] :=
  ⟨sample_index_ok, by decide +kernel, Sample.retried, by decide +kernel, by decide +kernel⟩

/-- The hypotheses of `C72_pluto_size` hold for a concrete index: with seventeen documents and blocks of seven,
there are three pairs, of which two are full blocks. -/
example : Spec.IndexOk 104 2 Tethys.Sample.prf Tethys.Sample.H 17 Sample.rand Sample.index ∧
    (Sample.index.map (fun x => x.2.length)).sum = (17 : UInt64).toNat ∧
    (Sample.empty.run Tethys.Sample.params (Sample.events 17 Sample.index)).2 =
      [.ok (), .ok (), .ok (), .ok (), .ok ()] ∧
    ((Sample.empty.run Tethys.Sample.params (Sample.events 17 Sample.index)).1.disk.rocks (Sample.rand 2)) =
      some (padded 7 []) :=
  ⟨sample_index_ok, by decide, by decide +kernel, by decide +kernel⟩

/-- The number of pairs leaks the failures: after an insertion that fails and is repeated, a block is counted
twice, and `build` inserts one dummy block less than without failure. The construction of the same index gives
three pairs without failure (`C72_pluto_size`), and two pairs here: the key of the dummy block is absent. -/
theorem C72_pluto_size_violated :
    (Sample.empty.run Tethys.Sample.params
      (.new 2 17 :: .insert 1 [1, 2, 3, 4, 5, 6, 7, 8] [.lost] ::
        (Sample.index.map (fun x => .insert x.1 x.2 []) ++ [.build Sample.rand []]))).2 =
      [.ok (), .error .put, .ok (), .ok (), .ok (), .ok ()] ∧
    ((Sample.empty.run Tethys.Sample.params (Sample.events 17 Sample.index)).1.disk.rocks (Sample.rand 2)) =
      some (padded 7 []) ∧
    ∀ k, (Sample.empty.run Tethys.Sample.params
      (.new 2 17 :: .insert 1 [1, 2, 3, 4, 5, 6, 7, 8] [.lost] ::
        (Sample.index.map (fun x => .insert x.1 x.2 []) ++ [.build Sample.rand []]))).1.disk.rocks k ≠ none →
      k = deriveCoreKey Tethys.Sample.H (Tethys.Sample.prf 1) 1 ∨
      k = deriveCoreKey Tethys.Sample.H (Tethys.Sample.prf 3) 1 := by
  refine ⟨by decide +kernel, by decide +kernel, ?_⟩
  intro k hk
  by_contra hno
  rw [not_or] at hno
  apply hk
  have h : (Sample.empty.run Tethys.Sample.params
      (.new 2 17 :: .insert 1 [1, 2, 3, 4, 5, 6, 7, 8] [.lost] ::
        (Sample.index.map (fun x => .insert x.1 x.2 []) ++ [.build Sample.rand []]))).1.disk.rocks =
      putAll (N := 7) Map.empty [(deriveCoreKey Tethys.Sample.H (Tethys.Sample.prf 1) 1, padded 7 [1, 2, 3, 4, 5, 6, 7]),
        (deriveCoreKey Tethys.Sample.H (Tethys.Sample.prf 3) 1, padded 7 [11, 12, 13, 14, 15, 16, 17])] := by
    rfl
  rw [h, putAll_other]
  · rfl
  · intro y hy
    simp only [List.mem_cons, List.not_mem_nil, or_false] at hy
    rcases hy with rfl | rfl
    · exact fun e => hno.1 e.symm
    · exact fun e => hno.2 e.symm

/-- **C72** is false when the RocksDB database has old blocks: the user removes the Tethys store of a database
and builds another index with the same keys. No call fails, and the search of the keyword 1 returns its document
and those of a full block of the old list. -/
theorem C72_pluto_stale_violated :
    ((Sample.empty.run Tethys.Sample.params (Sample.events 8 [(1, [1, 2, 3, 4, 5, 6, 7, 8])] ++
      .removeStore :: Sample.events 1 [(1, [20])])).2.all (fun o => o.toOption == some ())) = true ∧
    Sample.after (Sample.events 8 [(1, [1, 2, 3, 4, 5, 6, 7, 8])]) (fun _ => false) 1 =
      some [8, 1, 2, 3, 4, 5, 6, 7] ∧
    Sample.after (Sample.events 8 [(1, [1, 2, 3, 4, 5, 6, 7, 8])] ++ .removeStore :: Sample.events 1 [(1, [20])])
      (fun _ => false) 1 = some [20, 1, 2, 3, 4, 5, 6, 7] :=
  ⟨by decide +kernel, by decide +kernel, by decide +kernel⟩

/-- **C72** is false for a construction that is refused: a database exists, another builder is used at the same
place, and `build` fails since the Tethys table exists. The database is damaged all the same: the full
blocks were replaced by the insertions, and a search returns documents of both indexes. -/
theorem C72_pluto_refused_violated :
    (Sample.empty.run Tethys.Sample.params (Sample.events 8 [(1, [1, 2, 3, 4, 5, 6, 7, 8])] ++
      Sample.events 7 [(1, [21, 22, 23, 24, 25, 26, 27])])).2 =
      [.ok (), .ok (), .ok (), .ok (), .ok (), .error (.tethys .runtimeError)] ∧
    Sample.after (Sample.events 8 [(1, [1, 2, 3, 4, 5, 6, 7, 8])] ++
      Sample.events 7 [(1, [21, 22, 23, 24, 25, 26, 27])]) (fun _ => false) 1 =
      some [8, 21, 22, 23, 24, 25, 26, 27] :=
  ⟨by decide +kernel, by decide +kernel⟩

end Verif.Pluto
