import Verif.Sophos.Parallel
import Verif.Sophos.Lemmas
import Verif.ThreadPool.Systems
import Mathlib.Data.List.Nodup
import Mathlib.Data.List.Range

/-! # Lemmas on the slices of the parallel Sophos searches -/

set_option linter.unusedSectionVars false

namespace Verif.Sophos

open Verif ThreadPool

variable {Kw Seed ST DK : Type} [DecidableEq Kw]

/-! ## Lemmas on the slices -/

/-- Positions of a stride. -/
def strideIdx (n max i : Nat) : List Nat :=
  if i < max then i :: strideIdx n max (i + (n + 1)) else []
termination_by max - i

theorem mem_strideIdx (n max i p : Nat) :
    p ∈ strideIdx n max i ↔ i ≤ p ∧ p < max ∧ (p - i) % (n + 1) = 0 := by
  fun_induction strideIdx n max i with
  | case1 i h ih =>
    rw [List.mem_cons, ih]
    constructor
    · rintro (rfl | ⟨h1, h2, h3⟩)
      · simp [h]
      · refine ⟨by omega, h2, ?_⟩
        have : p - i = (p - (i + (n + 1))) + (n + 1) := by omega
        rw [this, Nat.add_mod_right, h3]
    · rintro ⟨h1, h2, h3⟩
      by_cases hp : p = i
      · exact Or.inl hp
      · right
        have hd : n + 1 ≤ p - i := Nat.le_of_dvd (by omega) (Nat.dvd_of_mod_eq_zero h3)
        refine ⟨by omega, h2, ?_⟩
        have : p - i = (p - (i + (n + 1))) + (n + 1) := by omega
        rwa [this, Nat.add_mod_right] at h3
  | case2 i h =>
    simp; omega

theorem nodup_strideIdx (n max i : Nat) : (strideIdx n max i).Nodup := by
  fun_induction strideIdx n max i with
  | case1 i h ih =>
    rw [List.nodup_cons]
    refine ⟨?_, ih⟩
    rw [mem_strideIdx]; omega
  | case2 i h => simp

theorem strides_perm (n max : Nat) :
    ((List.range (n + 1)).flatMap (fun t => strideIdx n max t)).Perm (List.range max) := by
  apply (List.perm_ext_iff_of_nodup ?_ List.nodup_range).mpr
  · intro p
    rw [List.mem_flatMap, List.mem_range]
    constructor
    · rintro ⟨t, -, ht⟩
      exact ((mem_strideIdx n max t p).mp ht).2.1
    · intro hp
      refine ⟨p % (n + 1), List.mem_range.mpr (Nat.mod_lt _ (by omega)), ?_⟩
      rw [mem_strideIdx]
      refine ⟨Nat.mod_le _ _, hp, ?_⟩
      have := Nat.div_add_mod p (n + 1)
      have h2 : p - p % (n + 1) = (n + 1) * (p / (n + 1)) := by omega
      rw [h2, Nat.mul_mod_right]
  · rw [List.nodup_flatMap]
    refine ⟨fun t _ => nodup_strideIdx n max t, ?_⟩
    have hpw : (List.range (n + 1)).Pairwise (fun a b => a < b) := List.pairwise_lt_range
    refine hpw.imp_of_mem ?_
    intro a b ha hb hab
    rw [Function.onFun, List.disjoint_left]
    intro p hpa hpb
    rw [List.mem_range] at ha hb
    rw [mem_strideIdx] at hpa hpb
    have h1 : p % (n + 1) = a := by
      have : p = (p - a) + a := by omega
      rw [this, Nat.add_mod, hpa.2.2, Nat.zero_add, Nat.mod_mod, Nat.mod_eq_of_lt ha]
    have h2 : p % (n + 1) = b := by
      have : p = (p - b) + b := by omega
      rw [this, Nat.add_mod, hpb.2.2, Nat.zero_add, Nat.mod_mod, Nat.mod_eq_of_lt hb]
    omega

theorem strideLoop_eq (c : Crypto Kw Seed ST DK) (n max i : Nat) (st : ST) :
    strideLoop c n max (i + (n + 1)) (c.eval^[i] st) =
      (strideIdx n max (i + (n + 1))).map (fun p => c.eval^[p] st) := by
  suffices h : ∀ j s, (∃ i, j = i + (n + 1) ∧ s = c.eval^[i] st) →
      strideLoop c n max j s = (strideIdx n max j).map (fun p => c.eval^[p] st) from
    h _ _ ⟨i, rfl, rfl⟩
  intro j
  induction hk : max - j using Nat.strongRecOn generalizing j with
  | ind k ih =>
    rintro s ⟨i, rfl, rfl⟩
    rw [strideLoop, strideIdx]
    by_cases hlt : i + (n + 1) < max
    · have he : c.eval^[n + 1] (c.eval^[i] st) = c.eval^[i + (n + 1)] st := by
        rw [← Function.iterate_add_apply]; congr 1; omega
      simp only [hlt, if_true, List.map_cons, he]
      congr 1
      exact ih (max - (i + (n + 1) + (n + 1))) (by omega) _ rfl _ ⟨i + (n + 1), rfl, rfl⟩
    · simp [hlt]

/-- A job with a positive stride. -/
theorem job_eq (c : Crypto Kw Seed ST DK) (st : ST) (t N max : Nat) (ht : t < N) (hN : N < 256) :
    job c st (UInt8.ofNat t) max (UInt8.ofNat N) =
      some ((strideIdx (N - 1) max t).map (fun p => c.eval^[p] st)) := by
  have e1 : (UInt8.ofNat t).toNat = t := by simp; omega
  have e2 : (UInt8.ofNat N).toNat = N := by simp; omega
  have hN0 : UInt8.ofNat N ≠ 0 := by
    intro h; have := congrArg UInt8.toNat h; rw [e2] at this; simp at this; omega
  have hst : (if UInt8.ofNat t ≠ 0 then c.eval^[(UInt8.ofNat t).toNat] st else st) =
      c.eval^[t] st := by
    by_cases h0 : UInt8.ofNat t = 0
    · have : t = 0 := by have := congrArg UInt8.toNat h0; rw [e1] at this; simpa using this
      simp [this]
    · rw [if_pos h0, e1]
  unfold job
  simp only [hst, if_neg hN0]
  rw [e1, e2]
  congr 1
  have hs := strideLoop_eq c (N - 1) max t st
  have hNN : N - 1 + 1 = N := by omega
  rw [hNN] at hs
  rw [hs]
  conv => rhs; rw [strideIdx]
  rw [hNN]
  by_cases hlt : t < max
  · simp [hlt]
  · have : ¬ t + N < max := by omega
    rw [strideIdx]
    simp [hlt, this]

theorem allJobs_map {α : Type} (l : List α) (g : α → Option (List ST)) (h : α → List ST)
    (hg : ∀ a ∈ l, g a = some (h a)) : allJobs (l.map g) = some (l.map h) := by
  unfold allJobs
  induction l with
  | nil => rfl
  | cons a l ih =>
    have h1 := hg a (by simp)
    have h2 := ih (fun b hb => hg b (by simp [hb]))
    simp [h1, h2]

/-- `N` threads with indexes `0..N-1` and stride `N` handle every position exactly once. -/
theorem jobs_perm (c : Crypto Kw Seed ST DK) (st : ST) (N max : Nat) (h0 : 0 < N) (hN : N < 256) :
    ∃ Ls, allJobs ((List.range N).map fun t => job c st (UInt8.ofNat t) max (UInt8.ofNat N)) =
        some Ls ∧
      Ls.flatten.Perm ((List.range max).map (fun p => c.eval^[p] st)) := by
  refine ⟨_, allJobs_map (List.range N) _
    (fun t => (strideIdx (N - 1) max t).map (fun p => c.eval^[p] st)) ?_, ?_⟩
  · intro t ht
    exact job_eq c st t N max (List.mem_range.mp ht) hN
  · have h1 : ((List.range N).map
        (fun t => (strideIdx (N - 1) max t).map (fun p => c.eval^[p] st))).flatten =
        ((List.range N).flatMap (fun t => strideIdx (N - 1) max t)).map
          (fun p => c.eval^[p] st) := by
      rw [List.map_flatMap, List.flatMap_def]
    rw [h1]
    have := strides_perm (N - 1) max
    rw [show N - 1 + 1 = N from by omega] at this
    exact this.map _

theorem search_eq_filterMap (c : Crypto Kw Seed ST DK) (edb : Edb) (r : SearchReq ST DK) :
    search c edb r = ((List.range r.addCount.toNat).map (fun p => c.eval^[p] r.token)).filterMap
      (access c edb r.derivationKey) := by
  rw [search, searchCallbackLoop_eq, List.nil_append, searchCallbackLoop_positions,
    List.filterMap_map]
  rfl

end Verif.Sophos
