import Verif.Oceanus.Lemmas

/-!
# The table that is built
-/

namespace Verif.Oceanus

open Spec

variable {n : Nat}

/-- The table that is built: lookups, and the cells of a key -/
theorem build_spec (size depth : Nat) (hash : Key → CKey) (ins : List (Key × Vector UInt8 n))
    (hs : 0 < size) (hl : ins.length < 2 ^ 64) (hd : (ins.map Prod.fst).Nodup) :
    ∃ t, build size depth hash ins = .ok t ∧
      (∀ (i : Nat) x, ins[i]? = some x → UInt64.ofNat i ∉ spilled size depth hash ins →
        t.get x.1 = .ok x.2) ∧
      (∀ (i : Nat) x, ins[i]? = some x → UInt64.ofNat i ∈ spilled size depth hash ins →
        x.1 ≠ allOnes → t.get x.1 = .error .outOfRange) ∧
      (∀ k, (∀ x ∈ ins, x.1 ≠ k) → k ≠ allOnes → t.get k = .error .outOfRange) ∧
      ∀ k, k ≠ allOnes → t.size ≠ 0 ∧ ∃ p0 p1, t.table[(t.hash k).h0.toNat % t.size]? = some p0 ∧
        t.table[(t.hash k).h1.toNat % t.size + t.size]? = some p1 ∧
        ¬ (matchKey p0 k = true ∧ matchKey p1 k = true) := by
  obtain ⟨b, lost, hb, h⟩ := (built_new (n := n) size depth hash).insertAll hs ins
    (by simpa using hl)
  simp only [List.nil_append] at h
  have hspill : spilled size depth hash ins = lost.map Cell.index := by
    unfold spilled; rw [hb]; exact h.spill
  -- the indexes of the cells
  have hnodup : ((entries b.alloc ++ lost).map Cell.index).Nodup := by
    rw [(h.perm.map Cell.index).nodup_iff, index_cellsFrom]
    rw [List.nodup_iff_pairwise_ne]
    rw [List.pairwise_map]
    refine List.Pairwise.imp_of_mem ?_ (List.nodup_iff_pairwise_ne.mp List.nodup_range')
    intro i j hi hj hij he
    have := congrArg UInt64.toNat he
    simp only [UInt64.toNat_ofNat', List.mem_range'_1] at this hi hj
    omega
  -- the entries come from insertions
  have hent : ∀ c ∈ entries b.alloc, ∃ (i : Nat) (x : Key × Vector UInt8 n), ins[i]? = some x ∧
      i < 2 ^ 64 ∧ c = ⟨hash x.1, UInt64.ofNat i⟩ := by
    intro c hc
    have : c ∈ cellsFrom hash 0 ins := h.perm.mem_iff.mp (by simp [hc])
    obtain ⟨i, x, hx, hcx⟩ := mem_cellsFrom.mp this
    have := (List.getElem?_eq_some_iff.mp hx).1
    exact ⟨i, x, hx, by omega, by simpa using hcx⟩
  have hidx : ∀ c ∈ b.alloc.t0 ++ b.alloc.t1, c.full = true → c.index.toNat < b.data.length := by
    intro c hc hf
    obtain ⟨i, x, hx, hi, rfl⟩ := hent c (List.mem_filter.mpr ⟨hc, hf⟩)
    have := (List.getElem?_eq_some_iff.mp hx).1
    rw [h.data]
    simp only [UInt64.toNat_ofNat', List.length_map]
    omega
  obtain ⟨file, hfile, hlen, hcell⟩ := writeTable_spec b.data (b.alloc.t0 ++ b.alloc.t1) hidx
  have hl0 := h.wf.l0
  have hl1 := h.wf.l1
  rw [h.size] at hl0 hl1
  rw [List.length_append, hl0, hl1] at hlen
  have hopen : Table.open hash file = .ok ⟨hash, file, size⟩ := by
    unfold Table.open
    rw [if_neg (by intro hn; rw [hn] at hlen; simp at hlen; omega), if_neg (by omega),
      show file.length / 2 = size by omega]
  have hbuild : build size depth hash ins = .ok ⟨hash, file, size⟩ := by
    unfold build
    rw [hb]
    dsimp only
    unfold Builder.commit
    rw [hfile]
    exact hopen
  -- the two cells of a key
  have hread0 : ∀ k : Key, ∃ c p, b.alloc.t0[(hash k).h0.toNat % size]? = some c ∧
      file[(hash k).h0.toNat % size]? = some p ∧ cellPayload b.data c = some p := by
    intro k
    have hlt : (hash k).h0.toNat % size < size := Nat.mod_lt _ hs
    obtain ⟨c, hc⟩ : ∃ c, b.alloc.t0[(hash k).h0.toNat % size]? = some c :=
      ⟨_, List.getElem?_eq_getElem (by omega)⟩
    obtain ⟨p, hp⟩ : ∃ p, file[(hash k).h0.toNat % size]? = some p :=
      ⟨_, List.getElem?_eq_getElem (by omega)⟩
    refine ⟨c, p, hc, hp, ?_⟩
    rw [← hp]
    exact (hcell _ c (by rw [List.getElem?_append_left (by omega), hc])).symm
  have hread1 : ∀ k : Key, ∃ c p, b.alloc.t1[(hash k).h1.toNat % size]? = some c ∧
      file[(hash k).h1.toNat % size + size]? = some p ∧ cellPayload b.data c = some p := by
    intro k
    have hlt : (hash k).h1.toNat % size < size := Nat.mod_lt _ hs
    obtain ⟨c, hc⟩ : ∃ c, b.alloc.t1[(hash k).h1.toNat % size]? = some c :=
      ⟨_, List.getElem?_eq_getElem (by omega)⟩
    obtain ⟨p, hp⟩ : ∃ p, file[(hash k).h1.toNat % size + size]? = some p :=
      ⟨_, List.getElem?_eq_getElem (by omega)⟩
    refine ⟨c, p, hc, hp, ?_⟩
    rw [← hp]
    refine (hcell _ c ?_).symm
    rw [List.getElem?_append_right (by omega), ← hc]
    congr 1; omega
  -- the payload of a cell matches its own key only
  have hmatch : ∀ (k : Key) c p, c ∈ b.alloc.t0 ++ b.alloc.t1 → cellPayload b.data c = some p →
      (k ≠ allOnes ∨ c.full = true) → matchKey p k = true →
      ∃ (i : Nat) (x : Key × Vector UInt8 n), ins[i]? = some x ∧ x.1 = k ∧ valueOf p = x.2 ∧
        c ∈ entries b.alloc ∧ c.index = UInt64.ofNat i := by
    intro k c p hc hp hk hm
    unfold cellPayload at hp
    cases hf : c.full
    · simp only [hf, if_true, Option.some.injEq] at hp
      subst hp
      rcases hk with hk | hk
      · exact absurd ((matchKey_empty k).mp hm) hk
      · rw [hf] at hk; cases hk
    · simp only [hf, Bool.true_eq_false, if_false] at hp
      have hce : c ∈ entries b.alloc := List.mem_filter.mpr ⟨hc, hf⟩
      obtain ⟨i, x, hx, hi, rfl⟩ := hent c hce
      rw [h.data] at hp
      simp only [UInt64.toNat_ofNat', Nat.mod_eq_of_lt hi, List.getElem?_map, hx, Option.map_some,
        Option.some.injEq] at hp
      subst hp
      exact ⟨i, x, hx, (matchKey_payload _ _ _).mp hm, valueOf_payload _ _, hce, rfl⟩
  -- an insertion with the key of `x` is the one of `x`
  have huniq : ∀ (i : Nat) (x : Key × Vector UInt8 n), ins[i]? = some x →
      ∀ (j : Nat) (y : Key × Vector UInt8 n), ins[j]? = some y → y.1 = x.1 → j = i ∧ y = x := by
    intro i x hx j y hy hyx
    have h1 : (ins.map Prod.fst)[j]? = some x.1 := by rw [List.getElem?_map, hy]; simp [hyx]
    have h2 : (ins.map Prod.fst)[i]? = some x.1 := by rw [List.getElem?_map, hx]; rfl
    have hj := (List.getElem?_eq_some_iff.mp h1).1
    have := (List.getElem?_inj hj hd).mp (h1.trans h2.symm)
    subst this
    rw [hx] at hy
    exact ⟨rfl, (Option.some.inj hy).symm⟩
  refine ⟨_, hbuild, ?_, ?_, ?_, ?_⟩
  · intro i x hx hsp
    rw [hspill] at hsp
    have hil := (List.getElem?_eq_some_iff.mp hx).1
    have hin : (⟨hash x.1, UInt64.ofNat i⟩ : Cell) ∈ cellsFrom hash 0 ins :=
      mem_cellsFrom.mpr ⟨i, x, hx, by simp⟩
    obtain ⟨c0, p0, hc0, hp0, hcp0⟩ := hread0 x.1
    obtain ⟨c1, p1, hc1, hp1, hcp1⟩ := hread1 x.1
    have hm0 : c0 ∈ b.alloc.t0 ++ b.alloc.t1 := List.mem_append_left _ (List.mem_of_getElem? hc0)
    have hm1 : c1 ∈ b.alloc.t0 ++ b.alloc.t1 := List.mem_append_right _ (List.mem_of_getElem? hc1)
    have hstored : (⟨hash x.1, UInt64.ofNat i⟩ : Cell) ∈ entries b.alloc := by
      have := h.perm.mem_iff.mpr hin
      rcases List.mem_append.mp this with h' | h'
      · exact h'
      · exact absurd (List.mem_map.mpr ⟨_, h', rfl⟩) hsp
    have hf0 : c0.full = true := by
      obtain ⟨c', hc', hf'⟩ := h.occ _ hstored
      rw [h.size, hc0] at hc'
      cases hc'
      exact hf'
    unfold Table.get
    dsimp only
    rw [if_neg (by omega), hp0]
    dsimp only
    by_cases hma : matchKey p0 x.1 = true
    · rw [if_pos hma]
      obtain ⟨j, y, hy, hyx, hv, -, -⟩ := hmatch x.1 c0 p0 hm0 hcp0 (.inr hf0) hma
      obtain ⟨-, rfl⟩ := huniq i x hx j y hy hyx
      rw [hv]
    · rw [if_neg hma, hp1]
      dsimp only
      -- the entry is stored, and it is not in the first table
      have hmem := (List.mem_filter.mp hstored).1
      have hfull := (List.mem_filter.mp hstored).2
      have hpay : cellPayload b.data ⟨hash x.1, UInt64.ofNat i⟩ = some (x.1 ++ x.2) := by
        unfold cellPayload
        rw [if_neg (by simp [hfull]), h.data]
        simp [UInt64.toNat_ofNat', Nat.mod_eq_of_lt (show i < 2 ^ 64 by omega), hx]
      have hp := h.wf.placed
      unfold Placed at hp
      rw [h.size] at hp
      have hc1' : c1 = ⟨hash x.1, UInt64.ofNat i⟩ := by
        rcases List.mem_append.mp hmem with h' | h'
        · obtain ⟨j, hj⟩ := List.getElem?_of_mem h'
          have := hp.1 j _ hj hfull
          dsimp only at this
          rw [← this] at hj
          rw [hj] at hc0
          have hc0 := Option.some.inj hc0
          rw [← hc0, hpay] at hcp0
          rw [← Option.some.inj hcp0] at hma
          exact absurd ((matchKey_payload _ _ _).mpr rfl) hma
        · obtain ⟨j, hj⟩ := List.getElem?_of_mem h'
          have := hp.2 j _ hj hfull
          dsimp only at this
          rw [← this] at hj
          rw [hj] at hc1
          exact (Option.some.inj hc1).symm
      rw [hc1', hpay] at hcp1
      rw [← Option.some.inj hcp1, if_pos ((matchKey_payload _ _ _).mpr rfl), valueOf_payload]
  · intro i x hx hsp hone
    rw [hspill] at hsp
    have hno : ∀ c ∈ entries b.alloc, c.index ≠ UInt64.ofNat i := by
      intro c hc he
      rw [List.map_append, List.nodup_append] at hnodup
      exact hnodup.2.2 _ (List.mem_map_of_mem hc) _ hsp he
    obtain ⟨c0, p0, hc0, hp0, hcp0⟩ := hread0 x.1
    obtain ⟨c1, p1, hc1, hp1, hcp1⟩ := hread1 x.1
    have hm0 : c0 ∈ b.alloc.t0 ++ b.alloc.t1 := List.mem_append_left _ (List.mem_of_getElem? hc0)
    have hm1 : c1 ∈ b.alloc.t0 ++ b.alloc.t1 := List.mem_append_right _ (List.mem_of_getElem? hc1)
    unfold Table.get
    dsimp only
    rw [if_neg (by omega), hp0]
    dsimp only
    rw [if_neg]
    · rw [hp1]
      dsimp only
      rw [if_neg]
      intro hm
      obtain ⟨j, y, hy, hyx, -, hce, hji⟩ := hmatch x.1 c1 p1 hm1 hcp1 (.inl hone) hm
      obtain ⟨rfl, -⟩ := huniq i x hx j y hy hyx
      exact hno c1 hce hji
    · intro hm
      obtain ⟨j, y, hy, hyx, -, hce, hji⟩ := hmatch x.1 c0 p0 hm0 hcp0 (.inl hone) hm
      obtain ⟨rfl, -⟩ := huniq i x hx j y hy hyx
      exact hno c0 hce hji
  · intro k hk hone
    obtain ⟨c0, p0, hc0, hp0, hcp0⟩ := hread0 k
    obtain ⟨c1, p1, hc1, hp1, hcp1⟩ := hread1 k
    have hm0 : c0 ∈ b.alloc.t0 ++ b.alloc.t1 := List.mem_append_left _ (List.mem_of_getElem? hc0)
    have hm1 : c1 ∈ b.alloc.t0 ++ b.alloc.t1 := List.mem_append_right _ (List.mem_of_getElem? hc1)
    unfold Table.get
    dsimp only
    rw [if_neg (by omega), hp0]
    dsimp only
    rw [if_neg]
    · rw [hp1]
      dsimp only
      rw [if_neg]
      intro hm
      obtain ⟨j, y, hy, hyk, -⟩ := hmatch k c1 p1 hm1 hcp1 (.inl hone) hm
      exact hk y (List.mem_of_getElem? hy) hyk
    · intro hm
      obtain ⟨j, y, hy, hyk, -⟩ := hmatch k c0 p0 hm0 hcp0 (.inl hone) hm
      exact hk y (List.mem_of_getElem? hy) hyk
  · intro k hone
    obtain ⟨c0, p0, hc0, hp0, hcp0⟩ := hread0 k
    obtain ⟨c1, p1, hc1, hp1, hcp1⟩ := hread1 k
    have hm0 : c0 ∈ b.alloc.t0 ++ b.alloc.t1 := List.mem_append_left _ (List.mem_of_getElem? hc0)
    have hm1 : c1 ∈ b.alloc.t0 ++ b.alloc.t1 := List.mem_append_right _ (List.mem_of_getElem? hc1)
    refine ⟨by dsimp only; omega, p0, p1, hp0, hp1, ?_⟩
    rintro ⟨hma0, hma1⟩
    obtain ⟨i, x, hx, hxk, -, hce0, hci⟩ := hmatch k c0 p0 hm0 hcp0 (.inl hone) hma0
    obtain ⟨j, y, hy, hyk, -, hce1, hcj⟩ := hmatch k c1 p1 hm1 hcp1 (.inl hone) hma1
    obtain ⟨rfl, -⟩ := huniq i x hx j y hy (hyk.trans hxk.symm)
    have hn : ((b.alloc.t0.filter Cell.full ++ b.alloc.t1.filter Cell.full).map Cell.index).Nodup := by
      rw [List.map_append, List.nodup_append] at hnodup
      have := hnodup.1
      unfold entries at this
      rwa [List.filter_append] at this
    rw [List.map_append, List.nodup_append] at hn
    have hf0 := (List.mem_filter.mp hce0).2
    have hf1 := (List.mem_filter.mp hce1).2
    exact hn.2.2 _ (List.mem_map_of_mem (List.mem_filter.mpr ⟨List.mem_of_getElem? hc0, hf0⟩)) _
      (List.mem_map_of_mem (List.mem_filter.mpr ⟨List.mem_of_getElem? hc1, hf1⟩)) (hci.trans hcj.symm)

end Verif.Oceanus
