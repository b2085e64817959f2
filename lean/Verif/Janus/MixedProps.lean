import Verif.Janus.MixedLemmas

/-!
# C68: sequential and parallel searches of Janus can be mixed

Whatever manner of searching is chosen for each search of a history, and whatever the schedule of the
threads, every search returns the same documents, each as often, as if all searches were sequential;
and no search blocks or fails.

The order may differ (`C68_order`), even for a later sequential search.
-/

namespace Verif.Janus.Mixed

open Verif

variable {PK KS CT Rand : Type}

/-- **C68**: the results of every run are those of the same history with sequential searches only, up
to their order. -/
theorem C68_mixed (c : Crypto PK KS CT Rand) (ops : List (Op Rand)) (hfit : ops.length + 1 < 2 ^ 32)
    (hnc : NoCollisionFor c (ops.map Op.plain)) (hok : ∀ op ∈ ops, op.ok = true)
    (s : Sys KS CT) (outs : List (List Index)) (hrun : Run c Sys.init ops s outs) :
    ∃ q outs', Janus.run c Sys.init (ops.map Op.plain) = .ok (q, outs') ∧
      List.Forall₂ List.Perm outs outs' := by
  unfold NoCollisionFor at hnc
  rw [List.length_map] at hnc
  obtain ⟨q, outs', -, h1, h2⟩ := run_sim c hfit hnc hrun (rel_init c _ _) (by omega) hok
    (fun op ho => List.mem_map.mpr ⟨op.plain, List.mem_map.mpr ⟨op, ho, rfl⟩, rfl⟩)
  exact ⟨q, outs', h1, h2⟩

/-- **C68** with C12: for the histories of C12 they are the documents inserted and not removed
since. -/
theorem C68_exact (c : Crypto PK KS CT Rand) (laws : PunctLaws c) (ops : List (Op Rand))
    (hfit : ops.length + 1 < 2 ^ 32) (hnc : NoCollisionFor c (ops.map Op.plain))
    (hok : ∀ op ∈ ops, op.ok = true)
    (hadm : Spec.admissible (fun _ => ⟨[], []⟩) (ops.map Op.plain) = true)
    (s : Sys KS CT) (outs : List (List Index)) (hrun : Run c Sys.init ops s outs) :
    List.Forall₂ List.Perm outs (Spec.run Spec.empty (ops.map Op.plain)) := by
  obtain ⟨q, outs', h1, h2⟩ := C68_mixed c ops hfit hnc hok s outs hrun
  obtain ⟨q', h3⟩ := C12_search_exact_partial c laws (ops.map Op.plain)
    (by rw [List.length_map]; exact hfit) hnc hadm
  rw [h3] at h1
  obtain ⟨-, rfl⟩ := Prod.mk.inj (Except.ok.inj h1)
  exact h2

/-- **C68**: nothing blocks.  Every run of the first operations of a history can be continued to a run
of the whole history. -/
theorem C68_progress (c : Crypto PK KS CT Rand) (pre post : List (Op Rand))
    (hfit : (pre ++ post).length + 1 < 2 ^ 32) (hnc : NoCollisionFor c ((pre ++ post).map Op.plain))
    (hok : ∀ op ∈ pre ++ post, op.ok = true) (s : Sys KS CT) (outs : List (List Index))
    (hrun : Run c Sys.init pre s outs) : ∃ s' outs', Run c s post s' outs' := by
  unfold NoCollisionFor at hnc
  rw [List.length_map] at hnc
  have hK : ∀ op ∈ pre ++ post,
      Spec.Op.kw op.plain ∈ ((pre ++ post).map Op.plain).map Spec.Op.kw :=
    fun op ho => List.mem_map.mpr ⟨op.plain, List.mem_map.mpr ⟨op, ho, rfl⟩, rfl⟩
  obtain ⟨q, outs', h1, -⟩ := run_sim c hfit hnc hrun (rel_init c _ _) (by simp)
    (fun o ho => hok o (by simp [ho])) (fun o ho => hK o (by simp [ho]))
  exact run_exists c hfit hnc post h1 (by simp) (fun o ho => hok o (by simp [ho]))
    (fun o ho => hK o (by simp [ho]))

/-- A history in which all manners are mixed. -/
def sampleOps : List (Op Unit) :=
  [.insert [97] 1 (), .insert [97] 2 (), .search [97] (.parallelList 3), .insert [97] 3 (),
    .remove [97] 1, .search [97] (.parallelCallback 2), .insert [97] 4 (), .remove [98] 1,
    .search [97] .sequential]

/-- Non-vacuity of C68: the history has a run, and the results are those expected. -/
example : (∃ s outs, Run Toy.crypto Sys.init sampleOps s outs) ∧
    Spec.run Spec.empty (sampleOps.map Op.plain) = [[1, 2], [2, 3], [2, 3, 4]] ∧
    ∀ s outs, Run Toy.crypto Sys.init sampleOps s outs →
      List.Forall₂ List.Perm outs [[1, 2], [2, 3], [2, 3, 4]] := by
  have hnc := toy_noCollisionFor (sampleOps.map Op.plain)
    (by simp [sampleOps, Op.plain, Spec.Op.kw]) (by simp [sampleOps])
  have hok : ∀ op ∈ sampleOps, op.ok = true := by
    simp [sampleOps, Op.ok, Mode.ok]
  have hs : Spec.run Spec.empty (sampleOps.map Op.plain) = [[1, 2], [2, 3], [2, 3, 4]] := by
    simp [sampleOps, Op.plain, Spec.run, Spec.Store.set, Spec.empty]
  refine ⟨C68_progress Toy.crypto [] sampleOps (by decide) hnc hok Sys.init []
    (.nil _), hs, ?_⟩
  intro s outs h
  rw [← hs]
  exact C68_exact Toy.crypto Toy.laws sampleOps (by decide) hnc hok (by decide) s outs h

/-- A history for the order of the results. -/
def orderOps : List (Op Unit) :=
  [.insert [97] 1 (), .search [97] .sequential, .insert [97] 2 (), .search [97] (.parallelList 1),
    .search [97] .sequential]

/-- The client and the server after an insertion, a sequential search and an insertion. -/
def orderSys : Sys (UInt32 × Tag) (Index × Tag) :=
  match Janus.run Toy.crypto Sys.init [.insert [97] 1 (), .search [97], .insert [97] 2 ()] with
  | .ok (s, _) => s
  | .error _ => Sys.init

/-- **C68**, but not in the same order: a search in parallel returns the new results before the old ones,
and so does every later sequential search, while sequential searches alone return them in the order of
insertion. -/
theorem C68_order :
    (∃ s, Run Toy.crypto Sys.init orderOps s [[1], [2, 1], [2, 1]]) ∧
    Spec.run Spec.empty (orderOps.map Op.plain) = [[1], [1, 2], [1, 2]] ∧
    ∃ s, Janus.run Toy.crypto Sys.init (orderOps.map Op.plain) = .ok (s, [[1], [1, 2], [1, 2]]) := by
  have hs : Spec.run Spec.empty (orderOps.map Op.plain) = [[1], [1, 2], [1, 2]] := by
    simp [orderOps, Op.plain, Spec.run, Spec.Store.set, Spec.empty]
  have hnc := toy_noCollisionFor (orderOps.map Op.plain)
    (by simp [orderOps, Op.plain, Spec.Op.kw]) (by simp [orderOps])
  refine ⟨?_, hs, ?_⟩
  · have hcache : readCache orderSys.server.cache (Toy.crypto.kwToken [97]) =
        .ok [(1, docTag Toy.crypto [97] 1)] := by decide +kernel
    have hi := toy_requestNoCollision ((0, Vector.replicate 16 0) : Index × Tag)
      (metaKeyword [97] (searchCounter orderSys.client [97]))
      (searchRequest Toy.crypto orderSys.client [97]).1.ins.addCount.toNat (by decide +kernel)
    have hd := toy_requestNoCollision ((0, Vector.replicate 16 0) : UInt32 × Tag)
      (metaKeyword [97] (searchCounter orderSys.client [97]))
      (searchRequest Toy.crypto orderSys.client [97]).1.del.addCount.toNat (by decide +kernel)
    obtain ⟨rep, listed, srv', hpar⟩ := C15_terminates Toy.crypto orderSys.client orderSys.server
      [97] 1 (by decide) hi _ hcache
    obtain ⟨shares, delEdb, insertions, insEdb, q1, q2, fresh, q3, filtered, q4, q5, q6, q7⟩ :=
      parallel_parts Toy.crypto orderSys.client orderSys.server [97] 1 (by decide) hd hcache hpar
    have e1 : (Diana.search Toy.crypto.del orderSys.server.delEdb
        (searchRequest Toy.crypto orderSys.client [97]).1.del true).map (·.1) = some [] := by
      decide +kernel
    have e2 : (Diana.search Toy.crypto.ins orderSys.server.insEdb
        (searchRequest Toy.crypto orderSys.client [97]).1.ins false).map (fun r => decryptAll
          Toy.crypto [(searchRequest Toy.crypto orderSys.client [97]).1.firstKeyShare] r.1) =
        some [(2, docTag Toy.crypto [97] 2)] := by
      decide +kernel
    rw [q1] at e1
    rw [q2] at e2
    have e1 : shares = [] := Option.some.inj e1
    subst e1
    have e2 : _ = fresh := (Option.some.inj e2).symm.trans q3.symm
    subst e2
    subst q4
    have q6 : listed = [2, 1] := q6
    subst q6
    subst q7
    have hlast : ∃ srv'', ServerSearch Toy.crypto
        ⟨insEdb, delEdb, writeCache orderSys.server.cache (Toy.crypto.kwToken [97])
          ([(2, docTag Toy.crypto [97] 2)] ++
            filterCache ([].map Toy.crypto.ksTag) [(1, docTag Toy.crypto [97] 1)])⟩
        (searchRequest Toy.crypto (searchRequest Toy.crypto orderSys.client [97]).2 [97]).1
        .sequential [2, 1] srv'' := by
      have e3 : (searchRequest Toy.crypto (searchRequest Toy.crypto orderSys.client [97]).2
          [97]).1.ins.addCount = 0 := by decide +kernel
      have e4 : (searchRequest Toy.crypto (searchRequest Toy.crypto orderSys.client [97]).2
          [97]).1.del.addCount = 0 := by decide +kernel
      have e5 : (searchRequest Toy.crypto (searchRequest Toy.crypto orderSys.client [97]).2
          [97]).1.kwToken = Toy.crypto.kwToken [97] := rfl
      simp only [ServerSearch, Janus.search, Diana.search, e3, e4, e5, if_true, ofOption, bind,
        Except.bind, readCache_writeCache, pure, Except.pure]
      exact ⟨_, rfl⟩
    obtain ⟨srv'', hlast⟩ := hlast
    have hfirst : Janus.run Toy.crypto Sys.init
        [.insert [97] 1 (), .search [97], .insert [97] 2 ()] = .ok (orderSys, [[1]]) := by
      obtain ⟨s, h⟩ := C12_search_exact_partial Toy.crypto Toy.laws
        [.insert [97] 1 (), .search [97], .insert [97] 2 ()] (by decide)
        (toy_noCollisionFor _ (by simp [Spec.Op.kw]) (by simp)) (by decide)
      have : orderSys = s := by unfold orderSys; rw [h]
      rw [this, h]
      simp [Spec.run, Spec.Store.set, Spec.empty]
    exact ⟨_, run_append Toy.crypto (run_sequentially Toy.crypto _ hfirst)
      (.cons (.search [97] (.parallelList 1) [2, 1] _ ⟨_, hpar⟩)
        (.cons (.search [97] .sequential [2, 1] srv'' hlast) (.nil _)))⟩
  · obtain ⟨s, h⟩ := C12_search_exact_partial Toy.crypto Toy.laws (orderOps.map Op.plain) (by decide)
      hnc (by decide)
    rw [hs] at h
    exact ⟨s, h⟩

end Verif.Janus.Mixed
