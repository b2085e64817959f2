import Verif.Faults.ParallelReadsLemmas
import Verif.Faults.Props

/-!
# C50: the parallel searches of Sophos when reads fail

Full statement: that of `Verif.Faults.Props`, for the parallel searches. It does not hold: the reads that fail make
documents disappear from the results without error (`C50_parallel_violated`), for each set of reads that fail.
`C50_parallel_refines` says exactly what each run may report. The parallel searches of Diana whose reads and deletions
fail are in `Verif.Diana.KindsProps` (C77).
-/

set_option linter.unusedSectionVars false

namespace Verif.Faults

open Verif Sophos

variable {Kw Seed ST DK : Type} [DecidableEq Kw]

/-- **C50**: after every history with failures, each run of each parallel search, whatever the schedule and the reads
that fail, reports what the machine with slots says for some set of failed accesses. -/
theorem C50_parallel_refines (c : Sophos.Crypto Kw Seed ST DK) (g : ST × DK) (ops : List (Op Kw Index)) (w : Kw)
    (getOk : Bool) (hfit : ∀ w, Spec.attempts w ops < 2 ^ 32)
    (hnc : SophosNoCollision c (fun w => Spec.attempts w ops)) (v : Variant) (hv : v.Ok) (res : List Index)
    (h : ReadsRun c (sophosAfter c g ops).edb v (searchRequest c g (seen getOk (sophosAfter c g ops).counters) w) res) :
    ∃ bad l, (Spec.Slots.init.run Spec.newestFirst (ops ++ [.search w getOk bad])).getLast? = some (.results l) ∧
      res.Perm l := by
  obtain ⟨Ls, hj, hs⟩ := h
  obtain ⟨Ls', hj', hp⟩ := variant_jobs c v hv (searchRequest c g (seen getOk (sophosAfter c g ops).counters) w)
  rw [hj'] at hj
  injection hj with hj
  rw [hj, ← List.map_flatten] at hp
  obtain ⟨bad, hb⟩ := marks_exist _ _ _ hp
  have ha : ∀ u, Spec.attempts u (ops ++ [.search w getOk bad]) = Spec.attempts u ops := by
    intro u; rw [Spec.attempts_append]; simp [Spec.attempts]
  refine ⟨bad, _, ?_, (schedule_emits c _ _ v hv Ls res hs).trans (hb.filterMap _)⟩
  rw [← C50_sophos_refines c g _ (by intro u; rw [ha]; exact hfit u) (by simpa only [ha] using hnc), sophosRun_last,
    marked_filterMap]
  rfl

/-- **C50**: each parallel search ends without error, and each set of failed accesses occurs. -/
theorem C50_parallel_occurs (c : Sophos.Crypto Kw Seed ST DK) (g : ST × DK) (ops : List (Op Kw Index)) (w : Kw)
    (getOk : Bool) (hfit : ∀ w, Spec.attempts w ops < 2 ^ 32)
    (hnc : SophosNoCollision c (fun w => Spec.attempts w ops)) (v : Variant) (hv : v.Ok) (bad : Nat → Bool) :
    ∃ res l, ReadsRun c (sophosAfter c g ops).edb v
        (searchRequest c g (seen getOk (sophosAfter c g ops).counters) w) res ∧
      (Spec.Slots.init.run Spec.newestFirst (ops ++ [.search w getOk bad])).getLast? = some (.results l) ∧
      res.Perm l := by
  obtain ⟨Ls, hj, hp⟩ := variant_jobs c v hv (searchRequest c g (seen getOk (sophosAfter c g ops).counters) w)
  have hp' : Ls.flatten.Perm (((List.range (searchRequest c g (seen getOk (sophosAfter c g ops).counters) w).addCount.toNat).map
      (fun p => (c.eval^[p] (searchRequest c g (seen getOk (sophosAfter c g ops).counters) w).token, bad p))).map
        Prod.fst) := by
    rw [List.map_map]; exact hp
  obtain ⟨L, h1, h2⟩ := perm_lift Prod.fst _ _ hp'
  obtain ⟨Ms, h3, h4⟩ := split_lift Prod.fst Ls L h1
  obtain ⟨res, hres⟩ := schedule_exists c (sophosAfter c g ops).edb
    (searchRequest c g (seen getOk (sophosAfter c g ops).counters) w).derivationKey v Ms
  have ha : ∀ u, Spec.attempts u (ops ++ [.search w getOk bad]) = Spec.attempts u ops := by
    intro u; rw [Spec.attempts_append]; simp [Spec.attempts]
  refine ⟨res, _, ⟨Ms, by rw [h3]; exact hj, hres⟩, ?_,
    (schedule_emits c _ _ v hv Ms res hres).trans ((h4 ▸ h2).filterMap _)⟩
  rw [← C50_sophos_refines c g _ (by intro u; rw [ha]; exact hfit u) (by simpa only [ha] using hnc), sophosRun_last,
    marked_filterMap]
  rfl

theorem read_last (H : List (Kw × Index)) (w : Kw) (bad : Nat → Bool) :
    (Spec.Slots.init.run Spec.newestFirst (H.map Spec.good ++ [.search w true bad])).getLast? =
      some (Out.results (keep bad (Spec.docs w H).reverse)) := by
  have hs := holds_slot Spec.newestFirst H w
  have hn := (Spec.exec_good Spec.newestFirst (Spec.Slots.init : Spec.Slots Kw Index) H w).1
  rw [Spec.run_append]
  simp only [Spec.Slots.run, Spec.Slots.step, hs, hn, List.getLast?_append, List.getLast?_singleton, Option.some_or]
  simp only [if_true, Spec.Slots.init, Nat.zero_add]
  rw [← keep_eq, List.length_reverse]
  congr 2
  apply List.filterMap_congr
  intro p hp
  rw [List.mem_range] at hp
  rw [List.getElem?_reverse hp]
  rfl

/-- **C50 violated**: insertions without failure, then a parallel search whose reads fail at the accesses `bad`: there
is a run, without error, that reports only the documents of the other accesses. -/
theorem C50_parallel_violated (c : Sophos.Crypto Kw Seed ST DK) (g : ST × DK) (H : List (Kw × Index)) (w : Kw)
    (hfit : ∀ v, (Spec.docs v H).length < 2 ^ 32) (hnc : SophosNoCollision c (fun v => (Spec.docs v H).length))
    (v : Variant) (hv : v.Ok) (bad : Nat → Bool) :
    ∃ res, ReadsRun c (sophosAfter c g (H.map Spec.good)).edb v
        (searchRequest c g (sophosAfter c g (H.map Spec.good)).counters w) res ∧
      res.Perm (keep bad (Spec.docs w H).reverse) := by
  have ha : ∀ u, Spec.attempts u (H.map (Spec.good (V := Index))) = (Spec.docs u H).length :=
    fun u => Spec.attempts_good u H
  obtain ⟨res, l, h1, h2, h3⟩ := C50_parallel_occurs c g (H.map Spec.good) w true
    (by intro u; rw [ha]; exact hfit u) (by simpa only [ha] using hnc) v hv bad
  rw [read_last] at h2
  injection h2 with h2
  injection h2 with h2
  subst h2
  exact ⟨res, h1, h3⟩

/-- **C50 (part that holds)**: insertions without failure, then a parallel search whose reads may fail: nothing is
reported that was not inserted for the keyword, and nothing more often than it was inserted.
Missing: that everything inserted is reported. -/
theorem C50_parallel_sound_partial (c : Sophos.Crypto Kw Seed ST DK) (g : ST × DK) (H : List (Kw × Index)) (w : Kw)
    (hfit : ∀ v, (Spec.docs v H).length < 2 ^ 32) (hnc : SophosNoCollision c (fun v => (Spec.docs v H).length))
    (v : Variant) (hv : v.Ok) (res : List Index)
    (h : ReadsRun c (sophosAfter c g (H.map Spec.good)).edb v
      (searchRequest c g (sophosAfter c g (H.map Spec.good)).counters w) res) :
    res.Subperm (Spec.docs w H) := by
  have ha : ∀ u, Spec.attempts u (H.map (Spec.good (V := Index))) = (Spec.docs u H).length :=
    fun u => Spec.attempts_good u H
  obtain ⟨bad, l, h2, h3⟩ := C50_parallel_refines c g (H.map Spec.good) w true
    (by intro u; rw [ha]; exact hfit u) (by simpa only [ha] using hnc) v hv res h
  rw [read_last] at h2
  injection h2 with h2
  injection h2 with h2
  subst h2
  refine h3.subperm.trans (List.Subperm.trans (List.Sublist.subperm ?_) (List.reverse_perm _).subperm)
  have hz : (Spec.docs w H).reverse.zipIdx.map (·.1) = (Spec.docs w H).reverse := by simp
  unfold keep
  have hsub := (List.filter_sublist (p := fun e : Index × Nat => !bad e.2)
    (l := (Spec.docs w H).reverse.zipIdx)).map (fun e : Index × Nat => e.1)
  rwa [hz] at hsub

/-- Non-vacuity: three documents, and a search by three threads whose second read fails. -/
example : ∃ res, ReadsRun Sophos.Toy.crypto
      (sophosAfter Sophos.Toy.crypto (0, false) ([(true, 5), (false, 8), (true, 6), (true, 7)].map Spec.good)).edb
      (.light 3) (searchRequest Sophos.Toy.crypto (0, false) (sophosAfter Sophos.Toy.crypto (0, false)
        ([(true, 5), (false, 8), (true, 6), (true, 7)].map Spec.good)).counters true) res ∧ res.Perm [7, 5] :=
  C50_parallel_violated Sophos.Toy.crypto (0, false) [(true, 5), (false, 8), (true, 6), (true, 7)] true
    (by intro v; cases v <;> decide) (Toy.sophos_noCollision _ (by intro v; cases v <;> decide)) (.light 3)
    (by simp [Variant.Ok]) (fun p => p == 1)

end Verif.Faults
