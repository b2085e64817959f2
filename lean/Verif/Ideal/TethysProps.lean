import Verif.Ideal.Tethys
import Mathlib.Order.Interval.Finset.Nat
import Mathlib.Tactic.NormNum

/-!
# Tethys and Pluto with ideal cryptography: C78
-/

namespace Verif.Ideal.Tethys

open Verif Verif.Tethys

/-- What is hashed, as an array of 24 bytes. -/
def input (t : Token) (i : Nat) : Input :=
  ⟨(Spec.blockInput t i).toArray, by simp [Spec.blockInput]⟩

theorem hashOf_input (h : Input → CoreKey) (t : Token) (i : Nat) :
    hashOf h (Spec.blockInput t i) = h (input t i) := by
  unfold hashOf
  rw [dif_pos (by simp [Spec.blockInput])]
  rfl

theorem input_eq {t u : Token} {i j : Nat} (h : input t i = input u j) : Spec.blockInput t i = Spec.blockInput u j := by
  have := congrArg (fun v : Input => v.toArray.toList) h
  simpa [input] using this

variable {W : Type} [DecidableEq W]

/-- The arrays hashed for the index. -/
def points (f : W → Token) (count : W × List Index → Nat) (index : List (W × List Index)) : Finset Input :=
  (index.flatMap (fun x => (List.range (count x)).map (input (f x.1)))).toFinset

omit [DecidableEq W] in
theorem card_points (f : W → Token) (count : W × List Index → Nat) (index : List (W × List Index)) :
    (points f count index).card ≤ (index.map count).sum := by
  refine le_trans (List.toFinset_card_le _) (le_of_eq ?_)
  rw [List.length_flatMap]
  simp

omit [DecidableEq W] in
theorem mem_points {f : W → Token} {count : W × List Index → Nat} {index : List (W × List Index)} {a : List UInt8}
    (h : a ∈ Spec.inputs f count index) :
    ∃ t i, a = Spec.blockInput t i ∧ input t i ∈ points f count index := by
  unfold Spec.inputs at h
  obtain ⟨x, hx, h⟩ := List.mem_flatMap.mp h
  obtain ⟨i, hi, rfl⟩ := List.mem_map.mp h
  refine ⟨f x.1, i, rfl, ?_⟩
  unfold points
  rw [List.mem_toFinset, List.mem_flatMap]
  exact ⟨x, hx, List.mem_map_of_mem hi⟩

omit [DecidableEq W] in
theorem hashes_of {f : W → Token} {count : W × List Index → Nat} {index : List (W × List Index)} {h : Input → CoreKey}
    (hc : ¬ ∃ a ∈ points f count index, ∃ b ∈ points f count index, a ≠ b ∧ h a = h b) :
    ∀ a ∈ Spec.inputs f count index, ∀ b ∈ Spec.inputs f count index, hashOf h a = hashOf h b → a = b := by
  intro a ha b hb e
  obtain ⟨t, i, rfl, h1⟩ := mem_points ha
  obtain ⟨u, j, rfl, h2⟩ := mem_points hb
  rw [hashOf_input, hashOf_input] at e
  by_contra hne
  exact hc ⟨_, h1, _, h2, fun e => hne (input_eq e), e⟩

theorem tokens_of {f : W → Token} {index : List (W × List Index)} (hn : (index.map Prod.fst).Nodup)
    (hc : ¬ ∃ a ∈ (index.map Prod.fst).toFinset, ∃ b ∈ (index.map Prod.fst).toFinset, a ≠ b ∧ f a = f b) :
    (index.map (fun x => f x.1)).Nodup := by
  rw [show (fun x : W × List Index => f x.1) = f ∘ Prod.fst from rfl, ← List.map_map]
  refine List.Nodup.map_on (fun a ha b hb e => ?_) hn
  by_contra hne
  exact hc ⟨a, List.mem_toFinset.mpr ha, b, List.mem_toFinset.mpr hb, hne, e⟩

/-- **C78**, Tethys: the hypotheses on the cryptography fail with a probability of at most `bound`. -/
theorem C78_tethys_collision {U : Finset W} (g : W → Token) (page n : Nat) (index : List (W × List Index))
    (hU : (index.map Prod.fst).toFinset ⊆ U) (hnum : Numbers page n index) :
    prob (fun ω : Choice U => ¬ Spec.IndexOk page n (extend g ω.1) (hashOf ω.2) index) ≤
      bound index.length (index.map (fun x => Spec.blockCount page x.2.length)).sum := by
  refine le_trans (prob_mono (q := fun ω =>
    (∃ a ∈ (index.map Prod.fst).toFinset, ∃ b ∈ (index.map Prod.fst).toFinset, a ≠ b ∧ extend g ω.1 a = extend g ω.1 b) ∨
      (∃ a ∈ points (extend g ω.1) (fun x => Spec.blockCount page x.2.length) index,
        ∃ b ∈ points (extend g ω.1) (fun x => Spec.blockCount page x.2.length) index, a ≠ b ∧ ω.2 a = ω.2 b)) ?_) ?_
  · intro ω hω
    by_contra hc
    simp only [not_or] at hc
    exact hω ⟨hnum.buckets, hnum.aligned, hnum.small, hnum.room, hnum.total, hnum.counters,
      tokens_of hnum.keywords hc.1, hashes_of hc.2⟩
  · unfold bound
    refine prob_or_le ?_ ?_
    · have := extend_le (Ω₂ := Input → CoreKey) (C := Token) hU g
      rw [card_bytes] at this
      have h2 := choose_two_mono (List.toFinset_card_le (index.map Prod.fst)) (256 ^ 16)
      rw [List.length_map] at h2
      push_cast at this h2
      exact le_trans this h2
    · have := collision_last₂ (C := CoreKey) (fun f : U → Token =>
        points (extend g f) (fun x => Spec.blockCount page x.2.length) index) _ (fun f => card_points _ _ _)
      rw [card_bytes] at this
      push_cast at this
      exact this

/-- **C78**, Tethys: with random functions, for an index without lists of a multiple of the block size, the construction or
a search fails or is wrong with a probability of at most `bound`. For the other indexes see C26. -/
theorem C78_tethys_search_partial {U : Finset W} (g : W → Token) (page n : Nat) (hash : CoreKey → UInt64 × UInt64)
    (enc : ValueEncoder) (index : List (W × List Index))
    (hU : (index.map Prod.fst).toFinset ⊆ U) (hnum : Numbers page n index)
    (hmul : ∀ x ∈ index, x.2.length % (page / 8 - 6) ≠ 0) :
    prob (fun ω : Choice U => ¬ ∃ fs counters,
      schemeBuild page n hash (extend g ω.1) (hashOf ω.2) enc index none = .ok (fs, counters) ∧
      (∀ x ∈ index, ∃ r, schemeSearch hash (extend g ω.1) (hashOf ω.2) enc fs counters x.1 = .ok r ∧ r.Perm x.2) ∧
      ∀ w, (∀ x ∈ index, x.1 ≠ w) → schemeSearch hash (extend g ω.1) (hashOf ω.2) enc fs counters w = .ok []) ≤
      bound index.length (index.map (fun x => Spec.blockCount page x.2.length)).sum := by
  refine le_trans (prob_mono ?_) (C78_tethys_collision g page n index hU hnum)
  intro ω hω hok
  exact hω (C26_search_partial page n hash _ _ enc index hok hmul)

/-! ## Pluto -/

/-- The points of the random function of Pluto. -/
def plutoPoints (L m : Nat) (f : W → Token) (index : List (W × List Index)) : Finset (Input ⊕ Fin m) :=
  (points f (fun x => x.2.length / L + 2) index).map ⟨Sum.inl, Sum.inl_injective⟩ ∪
    ((Finset.univ.filter (fun i : Fin m => Pluto.Spec.fullCount L index ≤ i.val)).map ⟨Sum.inr, Sum.inr_injective⟩)

omit [DecidableEq W] in
theorem card_plutoPoints (L m : Nat) (f : W → Token) (index : List (W × List Index)) :
    (plutoPoints L m f index).card ≤ (index.map (fun x => x.2.length / L + 2)).sum + (m - Pluto.Spec.fullCount L index) := by
  unfold plutoPoints
  refine le_trans (Finset.card_union_le _ _) (Nat.add_le_add ?_ ?_)
  · rw [Finset.card_map]; exact card_points _ _ _
  · rw [Finset.card_map]
    have : (Finset.univ.filter (fun i : Fin m => Pluto.Spec.fullCount L index ≤ i.val)).card =
        ((Finset.univ.filter (fun i : Fin m => Pluto.Spec.fullCount L index ≤ i.val)).map ⟨Fin.val, Fin.val_injective⟩).card := by
      rw [Finset.card_map]
    rw [this]
    refine le_trans (Finset.card_le_card (t := Finset.Ico (Pluto.Spec.fullCount L index) m) ?_) (by simp)
    intro i hi
    simp only [Finset.mem_map, Finset.mem_filter, Finset.mem_univ, true_and, Function.Embedding.coeFn_mk] at hi
    obtain ⟨j, hj, rfl⟩ := hi
    exact Finset.mem_Ico.mpr ⟨hj, j.isLt⟩

/-- **C78**, Pluto: the hypotheses on the cryptography fail with a probability of at most `bound`. -/
theorem C78_pluto_collision {U : Finset W} (g : W → Token) (page size : Nat) (n : UInt64) (index : List (W × List Index))
    (hU : (index.map Prod.fst).toFinset ⊆ U) (hnum : PlutoNumbers page size index) :
    prob (fun ω : PlutoChoice U (Pluto.nFullBlocks (page / 8 - 6) n).toNat =>
      ¬ Pluto.Spec.IndexOk page size (extend g ω.1) (hashOf (ω.2 ∘ Sum.inl)) n (randOf ω.2) index) ≤
      bound index.length ((index.map (fun x => x.2.length / (page / 8 - 6) + 2)).sum +
        ((Pluto.nFullBlocks (page / 8 - 6) n).toNat - Pluto.Spec.fullCount (page / 8 - 6) index)) := by
  generalize hL : page / 8 - 6 = L
  generalize hm : (Pluto.nFullBlocks L n).toNat = m
  refine le_trans (prob_mono (q := fun ω =>
    (∃ a ∈ (index.map Prod.fst).toFinset, ∃ b ∈ (index.map Prod.fst).toFinset, a ≠ b ∧ extend g ω.1 a = extend g ω.1 b) ∨
      (∃ a ∈ plutoPoints L m (extend g ω.1) index,
        ∃ b ∈ plutoPoints L m (extend g ω.1) index, a ≠ b ∧ ω.2 a = ω.2 b)) ?_) ?_
  · intro ω hω
    by_contra hc
    simp only [not_or] at hc
    obtain ⟨hc1, hc2⟩ := hc
    apply hω
    have hin : ∀ a ∈ Pluto.Spec.inputs L (extend g ω.1) index, ∃ t i, a = Spec.blockInput t i ∧
        Sum.inl (input t i) ∈ plutoPoints L m (extend g ω.1) index := by
      intro a ha
      obtain ⟨t, i, e, h⟩ := mem_points ha
      refine ⟨t, i, e, ?_⟩
      simp only [plutoPoints, Finset.mem_union, Finset.mem_map, Function.Embedding.coeFn_mk]
      exact Or.inl ⟨_, h, rfl⟩
    have hdum : ∀ i, Pluto.Spec.fullCount L index ≤ i → (hi : i < m) →
        Sum.inr ⟨i, hi⟩ ∈ plutoPoints L m (extend g ω.1) index ∧ randOf ω.2 i = ω.2 (.inr ⟨i, hi⟩) := by
      intro i h1 h2
      refine ⟨?_, by unfold randOf; rw [dif_pos h2]⟩
      simp only [plutoPoints, Finset.mem_union, Finset.mem_map, Function.Embedding.coeFn_mk]
      exact Or.inr ⟨⟨i, h2⟩, by simpa using h1, rfl⟩
    refine ⟨hnum.buckets, hnum.aligned, hnum.small, hnum.room, hnum.total, hnum.counters,
      tokens_of hnum.keywords hc1, ?_, ?_, ?_⟩
    · rw [hL]
      intro a ha b hb e
      obtain ⟨t, i, rfl, h1⟩ := hin a ha
      obtain ⟨u, j, rfl, h2⟩ := hin b hb
      rw [hashOf_input, hashOf_input] at e
      by_contra hne
      exact hc2 ⟨_, h1, _, h2, fun e => hne (input_eq (Sum.inl.inj e)), e⟩
    · rw [hL]
      unfold Pluto.Spec.dummies
      rw [hm]
      refine List.Nodup.map_on (fun a ha b hb e => ?_) List.nodup_range'
      rw [List.mem_range'_1] at ha hb
      obtain ⟨h1, h2⟩ := hdum a ha.1 (by omega)
      obtain ⟨h3, h4⟩ := hdum b hb.1 (by omega)
      rw [h2, h4] at e
      by_contra hne
      exact hc2 ⟨_, h1, _, h3, fun e => hne (by simpa using e), e⟩
    · rw [hL]
      intro a ha k hk e
      obtain ⟨t, i, rfl, h1⟩ := hin a ha
      unfold Pluto.Spec.dummies at hk
      rw [hm] at hk
      obtain ⟨b, hb, rfl⟩ := List.mem_map.mp hk
      rw [List.mem_range'_1] at hb
      obtain ⟨h3, h4⟩ := hdum b hb.1 (by omega)
      rw [hashOf_input, h4] at e
      exact hc2 ⟨_, h1, _, h3, by simp, e⟩
  · unfold bound
    refine prob_or_le ?_ ?_
    · have := extend_le (Ω₂ := Input ⊕ Fin m → CoreKey) (C := Token) hU g
      rw [card_bytes] at this
      have h2 := choose_two_mono (List.toFinset_card_le (index.map Prod.fst)) (256 ^ 16)
      rw [List.length_map] at h2
      push_cast at this h2
      exact le_trans this h2
    · have := collision_last₂ (C := CoreKey) (fun f : U → Token =>
        plutoPoints L m (extend g f) index) _ (fun f => card_plutoPoints _ _ _ _)
      rw [card_bytes] at this
      push_cast at this
      exact this

/-- **C78**, Pluto with the parameters for RocksDB: with random functions and random keys, the construction or a search of a
keyword of the index fails or is wrong with a probability of at most `bound`. -/
theorem C78_pluto_search {U : Finset W} (g : W → Token) (page size : Nat) (hash : CoreKey → UInt64 × UInt64)
    (enc : ValueEncoder) (n : UInt64) (index : List (W × List Index))
    (hU : (index.map Prod.fst).toFinset ⊆ U) (hnum : PlutoNumbers page size index) :
    prob (fun ω : PlutoChoice U (Pluto.nFullBlocks (page / 8 - 6) n).toNat => ¬ ∃ t fs,
      Pluto.schemeBuild (Pluto.rocksdb (Pluto.tethysLength page)) page size (Pluto.tethysLength page) hash (extend g ω.1)
        (hashOf (ω.2 ∘ Sum.inl)) enc n (randOf ω.2) index = .ok (t, fs) ∧
      ∀ x ∈ index, ∀ fuel, x.2.length / Pluto.tethysLength page < fuel →
        ∃ r, Pluto.schemeSearch (Pluto.rocksdb (Pluto.tethysLength page)) hash (extend g ω.1) (hashOf (ω.2 ∘ Sum.inl)) enc t fs
          fuel x.1 = .ok r ∧ r.Perm x.2) ≤
      bound index.length ((index.map (fun x => x.2.length / (page / 8 - 6) + 2)).sum +
        ((Pluto.nFullBlocks (page / 8 - 6) n).toNat - Pluto.Spec.fullCount (page / 8 - 6) index)) := by
  refine le_trans (prob_mono ?_) (C78_pluto_collision g page size n index hU hnum)
  intro ω hω hok
  obtain ⟨t, fs, h1, h2, -⟩ := Pluto.C30_rocksdb page size hash _ _ enc n _ index hok
  exact hω ⟨t, fs, h1, h2⟩

omit [DecidableEq W] in
/-- A keyword that is not in the index is one with an empty list in an index. -/
theorem absent_of {page size : Nat} {prf : W → Token} {H : List UInt8 → CoreKey} {n : UInt64} {rand : Nat → CoreKey}
    {index : List (W × List Index)} {w : W} (h : Pluto.Spec.IndexOk page size prf H n rand ((w, []) :: index)) :
    Pluto.Spec.IndexOk page size prf H n rand index ∧ Pluto.Spec.Absent page prf H n rand index w := by
  have hfull : Pluto.Spec.fullCount (page / 8 - 6) ((w, []) :: index) = Pluto.Spec.fullCount (page / 8 - 6) index := by
    simp [Pluto.Spec.fullCount]
  have hdum : Pluto.Spec.dummies (page / 8 - 6) n rand ((w, []) :: index) = Pluto.Spec.dummies (page / 8 - 6) n rand index := by
    unfold Pluto.Spec.dummies; rw [hfull]
  have hsub : ∀ a ∈ Pluto.Spec.inputs (page / 8 - 6) prf index, a ∈ Pluto.Spec.inputs (page / 8 - 6) prf ((w, []) :: index) := by
    intro a ha
    unfold Pluto.Spec.inputs Spec.inputs at ha ⊢
    rw [List.flatMap_cons]
    exact List.mem_append_right _ ha
  have hmem : ∀ i < 2, Spec.blockInput (prf w) i ∈ Pluto.Spec.inputs (page / 8 - 6) prf ((w, []) :: index) := by
    intro i hi
    unfold Pluto.Spec.inputs Spec.inputs
    rw [List.flatMap_cons]
    refine List.mem_append_left _ (List.mem_map_of_mem (List.mem_range.mpr ?_))
    simpa using hi
  have htok := h.tokens
  rw [List.map_cons, List.nodup_cons] at htok
  refine ⟨⟨h.buckets, h.aligned, h.small, h.room, ?_, fun x hx => h.counters x (List.mem_cons_of_mem _ hx), htok.2,
    fun a ha b hb => h.hashes a (hsub a ha) b (hsub b hb), hdum ▸ h.random, fun a ha => hdum ▸ h.fresh a (hsub a ha)⟩, ?_, ?_⟩
  · have := h.total
    simp only [List.map_cons, List.sum_cons, List.length_nil] at this
    omega
  · intro x hx e
    exact htok.1 (List.mem_map.mpr ⟨x, hx, e⟩)
  · intro i hi
    exact ⟨fun a ha => h.hashes _ (hmem i hi) a (hsub a ha), fun hk => h.fresh _ (hmem i hi) _ (hdum ▸ hk) rfl⟩

/-- **C78**, Pluto with the parameters for RocksDB: the same for the search of a keyword that is not in the index. -/
theorem C78_pluto_absent {U : Finset W} (g : W → Token) (page size : Nat) (hash : CoreKey → UInt64 × UInt64)
    (enc : ValueEncoder) (n : UInt64) (index : List (W × List Index)) (w : W)
    (hU : insert w (index.map Prod.fst).toFinset ⊆ U) (hnum : PlutoNumbers page size ((w, []) :: index)) :
    prob (fun ω : PlutoChoice U (Pluto.nFullBlocks (page / 8 - 6) n).toNat => ¬ ∃ t fs,
      Pluto.schemeBuild (Pluto.rocksdb (Pluto.tethysLength page)) page size (Pluto.tethysLength page) hash (extend g ω.1)
        (hashOf (ω.2 ∘ Sum.inl)) enc n (randOf ω.2) index = .ok (t, fs) ∧
      ∀ fuel, 0 < fuel → Pluto.schemeSearch (Pluto.rocksdb (Pluto.tethysLength page)) hash (extend g ω.1)
        (hashOf (ω.2 ∘ Sum.inl)) enc t fs fuel w = .ok []) ≤
      bound (index.length + 1) (2 + (index.map (fun x => x.2.length / (page / 8 - 6) + 2)).sum +
        ((Pluto.nFullBlocks (page / 8 - 6) n).toNat - Pluto.Spec.fullCount (page / 8 - 6) index)) := by
  have := C78_pluto_collision (U := U) g page size n ((w, []) :: index) (by simpa using hU) hnum
  have hfull : Pluto.Spec.fullCount (page / 8 - 6) ((w, []) :: index) = Pluto.Spec.fullCount (page / 8 - 6) index := by
    simp [Pluto.Spec.fullCount]
  rw [hfull] at this
  simp only [List.map_cons, List.sum_cons, List.length_cons, List.length_nil, Nat.zero_div, Nat.zero_add] at this
  refine le_trans (prob_mono ?_) this
  intro ω hω hok
  obtain ⟨h1, h2⟩ := absent_of hok
  obtain ⟨t, fs, h3, -, h4⟩ := Pluto.C30_rocksdb page size hash _ _ enc n _ index h1
  exact hω ⟨t, fs, h3, h4 w h2⟩

/-- With a million keywords and a billion keys, the bound is below `2^-68`. -/
theorem C78_tethys_number : bound (2 ^ 20) (2 ^ 30) < 1 / 2 ^ 68 := by
  unfold bound
  rw [Nat.choose_two_right, Nat.choose_two_right]
  norm_num

/-- The hypotheses hold for concrete indexes. -/
example : (Sample.index.map Prod.fst).toFinset ⊆ Finset.range 10 ∧ Numbers 104 2 Sample.index ∧
    (∀ x ∈ Sample.index, x.2.length % (104 / 8 - 6) ≠ 0) ∧
    PlutoNumbers 104 2 Sample.index ∧ PlutoNumbers 104 2 ((3, []) :: Sample.index) :=
  ⟨by decide, ⟨by decide, by decide, by decide, by decide, by decide, by decide, by decide⟩, by decide,
    ⟨by decide, by decide, by decide, by decide, by decide, by decide, by decide⟩,
    ⟨by decide, by decide, by decide, by decide, by decide, by decide, by decide⟩⟩

end Verif.Ideal.Tethys
