import Verif.Janus.FaultsMixedLemmas
import Verif.Janus.FaultsProps

/-!
# C64: Janus when RocksDB calls fail, with parallel searches

Full statement: as for `Janus/FaultsProps.lean`, when each search is made in any of the three ways that the
server offers and whatever the schedule of the threads: the observations are `Spec.Honest`.

It does not hold, as it does not for sequential searches.  `C64_mixed_refines` says exactly what is observed,
up to the order of the results; `C64_mixed_partial` says which failures are harmless;
`C64_mixed_violated` shows a pair of failures that is harmless when the search is sequential and harmful when it
is parallel.
-/

namespace Verif.Janus.Faults.Mixed

open Verif
open Verif.Janus.Mixed (Mode)

variable {PK KS CT Rand : Type}

/-- **C64**, all manners of searching: every run is observed, up to the order of the results, as the same
history with sequential searches, in which the insertions read by the parallel searches are not deleted. -/
theorem C64_mixed (c : Crypto PK KS CT Rand) (ops : List (Op Rand)) (hfit : ops.length + 1 < 2 ^ 32)
    (hnc : NoCollisionFor c (ops.map Op.plain)) (hok : ∀ op ∈ ops, op.ok = true)
    (s : Sys KS CT) (outs : List Out) (hrun : Run c Sys.init ops s outs) :
    ∃ q outs', Faults.run c Sys.init (ops.map Op.plain) = .ok (q, outs') ∧
      List.Forall₂ Same outs outs' := by
  unfold NoCollisionFor at hnc
  rw [List.length_map] at hnc
  exact run_sim c hfit hnc hrun rel_init (by omega) hok
    (fun op ho => List.mem_map.mpr ⟨op.plain, List.mem_map.mpr ⟨op, ho, rfl⟩, rfl⟩)

/-- **C64**, all manners of searching: what is observed under every pattern of failures in which the punctured
keys are complete. -/
theorem C64_mixed_refines (c : Crypto PK KS CT Rand) (laws : PunctLaws c) (ops : List (Op Rand))
    (hfit : ops.length + 1 < 2 ^ 32) (hnc : NoCollisionFor c (ops.map Op.plain))
    (hok : ∀ op ∈ ops, op.ok = true)
    (hkeys : (Faults.Spec.Machine.init : Faults.Spec.Machine Rand).keysOk (ops.map Op.plain) = true)
    (s : Sys KS CT) (outs : List Out) (hrun : Run c Sys.init ops s outs) :
    List.Forall₂ Same outs (Faults.Spec.Machine.init.run (ops.map Op.plain)) := by
  obtain ⟨q, outs', h1, h2⟩ := C64_mixed c ops hfit hnc hok s outs hrun
  obtain ⟨q', h3⟩ := C64_refines c laws (ops.map Op.plain) hnc (by rw [List.length_map]; omega) hkeys
  rw [h3] at h1
  obtain ⟨-, rfl⟩ := Prod.mk.inj (Except.ok.inj h1)
  exact h2

/-- **C64**, all manners of searching: whatever fails, no operation blocks or makes the process fail.  Every run
of the first operations of a history can be continued to a run of the whole history. -/
theorem C64_mixed_no_fault (c : Crypto PK KS CT Rand) (pre post : List (Op Rand))
    (hok : ∀ op ∈ post, op.ok = true) (s : Sys KS CT) (outs : List Out)
    (hrun : Run c Sys.init pre s outs) : ∃ s' outs', Run c s post s' outs' :=
  run_exists c post hok s (readable_run c hrun (fun _ => ⟨[], rfl⟩))

/-- **C64** for tolerable failures (`Spec.tolerable`), all manners of searching, for histories that Janus
handles correctly when nothing fails. -/
theorem C64_mixed_partial (c : Crypto PK KS CT Rand) (laws : PunctLaws c) (ops : List (Op Rand))
    (hfit : ops.length + 1 < 2 ^ 32) (hnc : NoCollisionFor c (ops.map Op.plain))
    (hok : ∀ op ∈ ops, op.ok = true) (htol : ∀ op ∈ ops, Spec.tolerable op)
    (hadm : Janus.Spec.admissible (fun _ => ⟨[], []⟩) (ops.flatMap Spec.counted) = true)
    (s : Sys KS CT) (outs : List Out) (hrun : Run c Sys.init ops s outs) :
    Spec.Honest Janus.Spec.empty ops outs := by
  obtain ⟨q, outs', h1, h2⟩ := C64_mixed c ops hfit hnc hok s outs hrun
  obtain ⟨q', outs'', h3, h4⟩ := C64_partial c laws (ops.map Op.plain) hnc
    (by rw [List.length_map]; omega)
    (fun op ho => by
      obtain ⟨o, h, rfl⟩ := List.mem_map.mp ho
      exact tolerable_plain o (htol o h))
    (by rw [counted_plain]; exact hadm)
  rw [h3] at h1
  obtain ⟨-, rfl⟩ := Prod.mk.inj (Except.ok.inj h1)
  exact honest_same ops _ _ _ h2 h4

/-! ## A violation due to the parallel search -/

/-- The search counter cannot be written in a search; then an insertion throws although its counter was
written. -/
def staleHistory (mode : Mode) (w : Str) (i j : Index) (r q : Rand) : List (Op Rand) :=
  [.insert w i r .good, .search w mode { SearchF.good with scPut := false },
    .insert w j q { InsertF.good with putRes := .storedButFailed }, .search w .sequential .good]

/-- The same with a sequential search that keeps the insertions or not. -/
def stalePlain (keep : Bool) (w : Str) (i j : Index) (r q : Rand) : List (Faults.Op Rand) :=
  [.insert w i r .good, .search w { SearchF.good with scPut := false, keepIns := fun _ => keep },
    .insert w j q { InsertF.good with putRes := .storedButFailed }, .search w .good]

theorem stalePlain_run (keep : Bool) (w : Str) (i j : Index) (r q : Rand) :
    (Faults.Spec.Machine.init : Faults.Spec.Machine Rand).keysOk (stalePlain keep w i j r q) = true ∧
    Faults.Spec.Machine.init.run (stalePlain keep w i j r q) =
      [.acked, .results [i], .error, .results (if keep then [i, i] else [i])] := by
  cases keep <;> constructor <;> unfold stalePlain <;> janus_eval

/-- **C64 violated**, by `staleHistory` with a parallel search: the position counted by the failed insertion
still holds the document inserted first, which is returned twice from then on.  After a sequential search the
position is empty, and the observations are right. -/
theorem C64_mixed_violated (c : Crypto PK KS CT Rand) (laws : PunctLaws c) (mode : Mode) (w : Str)
    (i j : Index) (r q : Rand) (hok : mode.ok = true)
    (hnc : NoCollisionFor c ((staleHistory mode w i j r q).map Op.plain)) :
    (∃ s outs, Run c Sys.init (staleHistory mode w i j r q) s outs) ∧
    ∀ s outs, Run c Sys.init (staleHistory mode w i j r q) s outs →
      if mode = .sequential then
        outs = [.acked, .results [i], .error, .results [i]] ∧
          Spec.Honest Janus.Spec.empty (staleHistory mode w i j r q) outs
      else
        outs = [.acked, .results [i], .error, .results [i, i]] ∧
          ¬ Spec.Honest Janus.Spec.empty (staleHistory mode w i j r q) outs := by
  have hoks : ∀ op ∈ staleHistory mode w i j r q, op.ok = true := by
    have hs : Mode.sequential.ok = true := rfl
    simp [staleHistory, Op.ok, hok, hs]
  refine ⟨C64_mixed_no_fault c [] _ hoks _ _ (.nil _), ?_⟩
  intro s outs hrun
  have hsing : ∀ (a : Index) (l : List Index), l.Perm [a] → l = [a] := fun a l h => List.perm_singleton.mp h
  have hpair : ∀ (a : Index) (l : List Index), l.Perm [a, a] → l = [a, a] := fun a l h =>
    (List.perm_replicate (n := 2)).mp h
  have hsame : ∀ (o : Out) (l : List Index), Same o (.results l) → ∃ l', o = .results l' ∧ l'.Perm l := by
    intro o l h
    cases o with
    | results l' => exact ⟨l', rfl, h⟩
    | _ => exact h.elim
  have hack : ∀ o : Out, Same o .acked → o = .acked := by
    intro o h
    cases o with
    | acked => rfl
    | _ => exact h.elim
  have herr : ∀ o : Out, Same o .error → o = .error := by
    intro o h
    cases o with
    | error => rfl
    | _ => exact h.elim
  have hlist : ∀ l : List Index, (l = [i] ∨ l = [i, i]) →
      List.Forall₂ Same outs [.acked, .results [i], .error, .results l] →
      outs = [.acked, .results [i], .error, .results l] := by
    intro l hl h
    cases h with
    | cons a1 h =>
    cases h with
    | cons a2 h =>
    cases h with
    | cons a3 h =>
    cases h with
    | cons a4 h =>
    cases h
    obtain ⟨l1, rfl, b1⟩ := hsame _ _ a2
    obtain ⟨l2, rfl, b2⟩ := hsame _ _ a4
    rw [hack _ a1, herr _ a3, hsing i l1 b1]
    rcases hl with rfl | rfl
    · rw [hsing i l2 b2]
    · rw [hpair i l2 b2]
  have href : ∀ keep, (staleHistory mode w i j r q).map Op.plain = stalePlain keep w i j r q →
      outs = [.acked, .results [i], .error, .results (if keep then [i, i] else [i])] := by
    intro keep he
    obtain ⟨h1, h2⟩ := stalePlain_run keep w i j r q
    have h3 := C64_mixed_refines c laws _ (by simp [staleHistory]) hnc hoks (he ▸ h1) s outs hrun
    rw [he, h2] at h3
    exact hlist _ (by cases keep <;> simp) h3
  cases mode with
  | sequential =>
    rw [if_pos rfl]
    obtain rfl := href false rfl
    refine ⟨rfl, ?_⟩
    simp [staleHistory, Spec.Honest, Janus.Spec.Store.set, Janus.Spec.empty]
  | parallelList t =>
    rw [if_neg (by simp)]
    obtain rfl := href true rfl
    refine ⟨rfl, ?_⟩
    simp [staleHistory, Spec.Honest, Janus.Spec.Store.set, Janus.Spec.empty]
  | parallelCallback t =>
    rw [if_neg (by simp)]
    obtain rfl := href true rfl
    refine ⟨rfl, ?_⟩
    simp [staleHistory, Spec.Honest, Janus.Spec.Store.set, Janus.Spec.empty]

/-! ## Examples -/

/-- A history with parallel searches and failures of every tolerable kind. -/
def sampleHistory : List (Op Unit) :=
  [.insert [97] 5 () .good,
    .insert [97] 7 () { InsertF.good with putRes := .storedButFailed },
    .insert [97] 9 () .good,
    .remove [97] 9 { RemoveF.good with putRes := .failed },
    .remove [97] 5 { RemoveF.good with numGet := false },
    .search [97] (.parallelList 3) { SearchF.good with insDel := false, delDel := false,
                                                       keepDel := fun _ => true },
    .insert [97] 11 () .good,
    .search [97] .sequential { SearchF.good with scPut := false },
    .insert [97] 12 () .good,
    .remove [97] 11 .good,
    .search [97] (.parallelCallback 2) .good]

/-- The hypotheses of the theorems are met by it. -/
example : (∃ s outs, Run Toy.crypto Sys.init sampleHistory s outs) ∧
    NoCollisionFor Toy.crypto (sampleHistory.map Op.plain) ∧
    (∀ op ∈ sampleHistory, op.ok = true) ∧ (∀ op ∈ sampleHistory, Spec.tolerable op) ∧
    Janus.Spec.admissible (fun _ => ⟨[], []⟩) (sampleHistory.flatMap Spec.counted) = true ∧
    (Faults.Spec.Machine.init : Faults.Spec.Machine Unit).keysOk (sampleHistory.map Op.plain) = true := by
  have hok : ∀ op ∈ sampleHistory, op.ok = true := by
    simp [sampleHistory, Op.ok, Mode.ok]
  refine ⟨C64_mixed_no_fault Toy.crypto [] _ hok _ _ (.nil _),
    sample_noCollision _ (by decide) (by decide), hok, ?_, by decide +kernel, by decide +kernel⟩
  simp [sampleHistory, Spec.tolerable, InsertF.good, RemoveF.good, SearchF.good]

/-- The results of its last search are 9 and 12. -/
example : (Faults.Spec.Machine.init : Faults.Spec.Machine Unit).run (sampleHistory.map Op.plain) =
    [.acked, .error, .acked, .error, .acked, .results [9], .acked, .results [9, 11], .acked, .acked,
      .results [9, 12]] := by decide +kernel

/-- The witness of `C64_mixed_violated` meets its hypotheses. -/
example : NoCollisionFor Toy.crypto ((staleHistory (.parallelList 3) [97] 5 6 () ()).map Op.plain) ∧
    (Mode.parallelList 3).ok = true :=
  ⟨sample_noCollision _ (by decide) (by decide), by decide⟩

end Verif.Janus.Faults.Mixed
