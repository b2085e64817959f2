import Verif.Oceanus.Build

/-!
# The table that is built when a key is inserted several times

`CuckooBuilder::insert` (`/repo/lib/include/sse/schemes/oceanus/cuckoo.hpp` L147-178) does not look whether the key is in the table.
-/

namespace Verif.Oceanus

open Spec

variable {n : Nat}

/-- The table that is built, whatever the keys: a lookup finds one of the values inserted with the key, if one of them
was not spilled. -/
theorem build_any (size depth : Nat) (hash : Key → CKey) (ins : List (Key × Vector UInt8 n))
    (hs : 0 < size) (hl : ins.length < 2 ^ 64) :
    ∃ t, build size depth hash ins = .ok t ∧
      (∀ (i : Nat) x, ins[i]? = some x → UInt64.ofNat i ∉ spilled size depth hash ins →
        ∃ y ∈ ins, y.1 = x.1 ∧ t.get x.1 = .ok y.2) ∧
      ∀ k, k ≠ allOnes → t.get k = .error .outOfRange ∨ ∃ y ∈ ins, y.1 = k ∧ t.get k = .ok y.2 := by
  obtain ⟨b, lost, hb, h⟩ := (built_new (n := n) size depth hash).insertAll hs ins
    (by simpa using hl)
  simp only [List.nil_append] at h
  have hspill : spilled size depth hash ins = lost.map Cell.index := by
    unfold spilled; rw [hb]; exact h.spill
  -- the entries come from insertions
  have hent : ∀ c ∈ entries b.alloc, ∃ (i : Nat) (x : Key × Vector UInt8 n), ins[i]? = some x ∧
      i < 2 ^ 64 ∧ c = ⟨hash x.1, UInt64.ofNat i⟩ := by
    intro c hc
    have : c ∈ cellsFrom hash 0 ins := h.perm.mem_iff.mp (by simp [hc])
    obtain ⟨i, x, hx, hcx⟩ := mem_cellsFrom.mp this
    have := (List.getElem?_eq_some_iff.mp hx).1
    exact ⟨i, x, hx, by omega, by simpa using hcx⟩
  have hidx : ∀ c ∈ b.alloc.t0 ++ b.alloc.t1, c.full = true → c.index.toNat < b.data.length := by
    intro c hc hf
    obtain ⟨i, x, hx, hi, rfl⟩ := hent c (List.mem_filter.mpr ⟨hc, hf⟩)
    have := (List.getElem?_eq_some_iff.mp hx).1
    rw [h.data]
    simp only [UInt64.toNat_ofNat', List.length_map]
    omega
  obtain ⟨file, hfile, hlen, hcell⟩ := writeTable_spec b.data (b.alloc.t0 ++ b.alloc.t1) hidx
  have hl0 := h.wf.l0
  have hl1 := h.wf.l1
  rw [h.size] at hl0 hl1
  rw [List.length_append, hl0, hl1] at hlen
  have hopen : Table.open hash file = .ok ⟨hash, file, size⟩ := by
    unfold Table.open
    rw [if_neg (by intro hn; rw [hn] at hlen; simp at hlen; omega), if_neg (by omega),
      show file.length / 2 = size by omega]
  have hbuild : build size depth hash ins = .ok ⟨hash, file, size⟩ := by
    unfold build
    rw [hb]
    dsimp only
    unfold Builder.commit
    rw [hfile]
    exact hopen
  -- the two cells of a key
  have hread0 : ∀ k : Key, ∃ c p, b.alloc.t0[(hash k).h0.toNat % size]? = some c ∧
      file[(hash k).h0.toNat % size]? = some p ∧ cellPayload b.data c = some p := by
    intro k
    have hlt : (hash k).h0.toNat % size < size := Nat.mod_lt _ hs
    obtain ⟨c, hc⟩ : ∃ c, b.alloc.t0[(hash k).h0.toNat % size]? = some c :=
      ⟨_, List.getElem?_eq_getElem (by omega)⟩
    obtain ⟨p, hp⟩ : ∃ p, file[(hash k).h0.toNat % size]? = some p :=
      ⟨_, List.getElem?_eq_getElem (by omega)⟩
    refine ⟨c, p, hc, hp, ?_⟩
    rw [← hp]
    exact (hcell _ c (by rw [List.getElem?_append_left (by omega), hc])).symm
  have hread1 : ∀ k : Key, ∃ c p, b.alloc.t1[(hash k).h1.toNat % size]? = some c ∧
      file[(hash k).h1.toNat % size + size]? = some p ∧ cellPayload b.data c = some p := by
    intro k
    have hlt : (hash k).h1.toNat % size < size := Nat.mod_lt _ hs
    obtain ⟨c, hc⟩ : ∃ c, b.alloc.t1[(hash k).h1.toNat % size]? = some c :=
      ⟨_, List.getElem?_eq_getElem (by omega)⟩
    obtain ⟨p, hp⟩ : ∃ p, file[(hash k).h1.toNat % size + size]? = some p :=
      ⟨_, List.getElem?_eq_getElem (by omega)⟩
    refine ⟨c, p, hc, hp, ?_⟩
    rw [← hp]
    refine (hcell _ c ?_).symm
    rw [List.getElem?_append_right (by omega), ← hc]
    congr 1; omega
  -- the payload of a cell matches its own key only
  have hmatch : ∀ (k : Key) c p, c ∈ b.alloc.t0 ++ b.alloc.t1 → cellPayload b.data c = some p →
      (k ≠ allOnes ∨ c.full = true) → matchKey p k = true →
      ∃ (i : Nat) (x : Key × Vector UInt8 n), ins[i]? = some x ∧ x.1 = k ∧ valueOf p = x.2 ∧
        c ∈ entries b.alloc ∧ c.index = UInt64.ofNat i := by
    intro k c p hc hp hk hm
    unfold cellPayload at hp
    cases hf : c.full
    · simp only [hf, if_true, Option.some.injEq] at hp
      subst hp
      rcases hk with hk | hk
      · exact absurd ((matchKey_empty k).mp hm) hk
      · rw [hf] at hk; cases hk
    · simp only [hf, Bool.true_eq_false, if_false] at hp
      have hce : c ∈ entries b.alloc := List.mem_filter.mpr ⟨hc, hf⟩
      obtain ⟨i, x, hx, hi, rfl⟩ := hent c hce
      rw [h.data] at hp
      simp only [UInt64.toNat_ofNat', Nat.mod_eq_of_lt hi, List.getElem?_map, hx, Option.map_some,
        Option.some.injEq] at hp
      subst hp
      exact ⟨i, x, hx, (matchKey_payload _ _ _).mp hm, valueOf_payload _ _, hce, rfl⟩
  refine ⟨_, hbuild, ?_, ?_⟩
  · intro i x hx hsp
    rw [hspill] at hsp
    have hil := (List.getElem?_eq_some_iff.mp hx).1
    have hin : (⟨hash x.1, UInt64.ofNat i⟩ : Cell) ∈ cellsFrom hash 0 ins :=
      mem_cellsFrom.mpr ⟨i, x, hx, by simp⟩
    obtain ⟨c0, p0, hc0, hp0, hcp0⟩ := hread0 x.1
    obtain ⟨c1, p1, hc1, hp1, hcp1⟩ := hread1 x.1
    have hm0 : c0 ∈ b.alloc.t0 ++ b.alloc.t1 := List.mem_append_left _ (List.mem_of_getElem? hc0)
    have hm1 : c1 ∈ b.alloc.t0 ++ b.alloc.t1 := List.mem_append_right _ (List.mem_of_getElem? hc1)
    have hstored : (⟨hash x.1, UInt64.ofNat i⟩ : Cell) ∈ entries b.alloc := by
      have := h.perm.mem_iff.mpr hin
      rcases List.mem_append.mp this with h' | h'
      · exact h'
      · exact absurd (List.mem_map.mpr ⟨_, h', rfl⟩) hsp
    have hf0 : c0.full = true := by
      obtain ⟨c', hc', hf'⟩ := h.occ _ hstored
      rw [h.size, hc0] at hc'
      cases hc'
      exact hf'
    unfold Table.get
    dsimp only
    rw [if_neg (by omega), hp0]
    dsimp only
    by_cases hma : matchKey p0 x.1 = true
    · rw [if_pos hma]
      obtain ⟨j, y, hy, hyx, hv, -, -⟩ := hmatch x.1 c0 p0 hm0 hcp0 (.inr hf0) hma
      exact ⟨y, List.mem_of_getElem? hy, hyx, by rw [hv]⟩
    · rw [if_neg hma, hp1]
      dsimp only
      -- the entry is stored, and it is not in the first table
      have hmem := (List.mem_filter.mp hstored).1
      have hfull := (List.mem_filter.mp hstored).2
      have hpay : cellPayload b.data ⟨hash x.1, UInt64.ofNat i⟩ = some (x.1 ++ x.2) := by
        unfold cellPayload
        rw [if_neg (by simp [hfull]), h.data]
        simp [UInt64.toNat_ofNat', Nat.mod_eq_of_lt (show i < 2 ^ 64 by omega), hx]
      have hp := h.wf.placed
      unfold Placed at hp
      rw [h.size] at hp
      have hc1' : c1 = ⟨hash x.1, UInt64.ofNat i⟩ := by
        rcases List.mem_append.mp hmem with h' | h'
        · obtain ⟨j, hj⟩ := List.getElem?_of_mem h'
          have := hp.1 j _ hj hfull
          dsimp only at this
          rw [← this] at hj
          rw [hj] at hc0
          have hc0 := Option.some.inj hc0
          rw [← hc0, hpay] at hcp0
          rw [← Option.some.inj hcp0] at hma
          exact absurd ((matchKey_payload _ _ _).mpr rfl) hma
        · obtain ⟨j, hj⟩ := List.getElem?_of_mem h'
          have := hp.2 j _ hj hfull
          dsimp only at this
          rw [← this] at hj
          rw [hj] at hc1
          exact (Option.some.inj hc1).symm
      rw [hc1', hpay] at hcp1
      rw [← Option.some.inj hcp1, if_pos ((matchKey_payload _ _ _).mpr rfl), valueOf_payload]
      exact ⟨x, List.mem_of_getElem? hx, rfl, rfl⟩
  · intro k hone
    obtain ⟨c0, p0, hc0, hp0, hcp0⟩ := hread0 k
    obtain ⟨c1, p1, hc1, hp1, hcp1⟩ := hread1 k
    have hm0 : c0 ∈ b.alloc.t0 ++ b.alloc.t1 := List.mem_append_left _ (List.mem_of_getElem? hc0)
    have hm1 : c1 ∈ b.alloc.t0 ++ b.alloc.t1 := List.mem_append_right _ (List.mem_of_getElem? hc1)
    unfold Table.get
    dsimp only
    rw [if_neg (by omega), hp0]
    dsimp only
    by_cases hma : matchKey p0 k = true
    · rw [if_pos hma]
      obtain ⟨j, y, hy, hyk, hv, -⟩ := hmatch k c0 p0 hm0 hcp0 (.inl hone) hma
      exact .inr ⟨y, List.mem_of_getElem? hy, hyk, by rw [hv]⟩
    · rw [if_neg hma, hp1]
      dsimp only
      by_cases hmb : matchKey p1 k = true
      · rw [if_pos hmb]
        obtain ⟨j, y, hy, hyk, hv, -⟩ := hmatch k c1 p1 hm1 hcp1 (.inl hone) hmb
        exact .inr ⟨y, List.mem_of_getElem? hy, hyk, by rw [hv]⟩
      · rw [if_neg hmb]
        exact .inl rfl

/-- Of three insertions with the same key, one is spilled: there are only two cells for a key. -/
theorem three_spill (size depth : Nat) (hash : Key → CKey) (ins : List (Key × Vector UInt8 n))
    (hs : 0 < size) (hl : ins.length < 2 ^ 64) (k : Key) (h3 : 3 ≤ (ins.map Prod.fst).count k) :
    spilled size depth hash ins ≠ [] := by
  intro hsp
  obtain ⟨b, lost, hb, h⟩ := (built_new (n := n) size depth hash).insertAll hs ins (by simpa using hl)
  simp only [List.nil_append] at h
  have hlost : lost = [] := by
    have : spilled size depth hash ins = lost.map Cell.index := by
      unfold spilled; rw [hb]; exact h.spill
    rw [hsp] at this
    exact List.map_eq_nil_iff.mp this.symm
  subst hlost
  have hperm := h.perm
  rw [List.append_nil] at hperm
  -- the entries with the hashes of the key
  have hcount : ∀ (ins : List (Key × Vector UInt8 n)) (j : Nat),
      (ins.map Prod.fst).count k ≤ ((cellsFrom hash j ins).filter (fun c => decide (c.key = hash k))).length := by
    intro ins
    induction ins with
    | nil => intro j; simp
    | cons x ins ih =>
      intro j
      simp only [List.map_cons, List.count_cons, cellsFrom, List.filter_cons]
      have := ih (j + 1)
      by_cases hx : x.1 = k
      · simp only [hx, beq_self_eq_true, if_true, decide_true, List.length_cons]
        omega
      · have hx' : (x.1 == k) = false := by simpa using hx
        simp only [hx', Bool.false_eq_true, if_false, Nat.add_zero]
        split
        · rw [List.length_cons]; omega
        · exact this
  have h4 := Nat.le_trans h3 (hcount ins 0)
  rw [← (hperm.filter _).length_eq] at h4
  have hp := h.wf.placed
  unfold Placed at hp
  rw [h.size] at hp
  unfold entries at h4
  rw [List.filter_filter, List.filter_append, List.length_append] at h4
  have hone : ∀ (t : List Cell) (p : Nat), (∀ (i : Nat) c, t[i]? = some c → c.full = true → c.key = hash k → i = p) →
      (t.filter (fun c => decide (c.key = hash k) && c.full)).length ≤ 1 := by
    intro t p ht
    rw [← List.countP_eq_length_filter]
    have key : ∀ (t : List Cell) (q o : Nat),
        (∀ (i : Nat) c, t[i]? = some c → c.full = true → c.key = hash k → i + o = q) →
        t.countP (fun c => decide (c.key = hash k) && c.full) ≤ 1 := by
      intro t
      induction t with
      | nil => intro q o _; simp
      | cons c t ih =>
        intro q o hq
        rw [List.countP_cons]
        split
        · rename_i hc
          simp only [Bool.and_eq_true, decide_eq_true_eq] at hc
          have h0 := hq 0 c rfl hc.2 hc.1
          have : t.countP (fun c => decide (c.key = hash k) && c.full) = 0 := by
            rw [List.countP_eq_zero]
            intro d hd hdd
            simp only [Bool.and_eq_true, decide_eq_true_eq] at hdd
            obtain ⟨i, hi⟩ := List.getElem?_of_mem hd
            have := hq (i + 1) d (by simpa using hi) hdd.2 hdd.1
            omega
          omega
        · rw [Nat.add_zero]
          exact ih q (o + 1) (fun i d hi hf hk => by
            have := hq (i + 1) d (by simpa using hi) hf hk; omega)
    exact key t p 0 (fun i c hi hf hk => by simpa using ht i c hi hf hk)
  have h5 := hone b.alloc.t0 ((hash k).h0.toNat % size) (fun i c hi hf hk => by
    have := hp.1 i c hi hf; rw [hk] at this; exact this.symm)
  have h6 := hone b.alloc.t1 ((hash k).h1.toNat % size) (fun i c hi hf hk => by
    have := hp.2 i c hi hf; rw [hk] at this; exact this.symm)
  omega

end Verif.Oceanus
