import Verif.Sophos.ParallelLemmas
import Verif.Sophos.Props

/-!
# Sophos: C02 and C03

All the variants of the server search are compared with `search`; complete runs are those of the
interleaving semantics of threads and pools.
-/

set_option linter.unusedSectionVars false

namespace Verif.Sophos

open Verif ThreadPool

variable {Kw Seed ST DK : Type} [DecidableEq Kw]

/-! ## C02 -/

/-- **C02**: `search_callback` reports the same sequence as `search`. -/
theorem C02_callback (c : Crypto Kw Seed ST DK) (edb : Edb) (r : SearchReq ST DK) :
    searchCallback c edb r = search c edb r := by
  rw [search, searchCallbackLoop_eq]; rfl

/-- **C02**: `search_parallel` returns the same multiset as `search`, for all machines with at most
255 hardware threads, all access-pool sizes and all schedules. -/
theorem C02_search_parallel (c : Crypto Kw Seed ST DK) (edb : Edb) (hw : Nat) (hhw : hw ≤ 255)
    (accessThreads : UInt8) (ha : accessThreads ≠ 0) (r : SearchReq ST DK) (res : List Index)
    (h : SearchParallelRun c edb hw accessThreads r res) : res.Perm (search c edb r) := by
  obtain ⟨Ls, s, hL, hs, hr, rfl⟩ := h
  obtain ⟨Ls', hL', hperm⟩ := jobs_perm c r.token (Nat.max hw 2) r.addCount.toNat
    (by have := Nat.le_max_right hw 2; exact Nat.lt_of_lt_of_le (by decide) this)
    (by exact Nat.max_lt.mpr ⟨by omega, by decide⟩)
  have hLL : Ls = Ls' := by
    have h1 : some Ls = some Ls' := hL.symm.trans hL'
    exact Option.some.inj h1
  subst hLL
  have hn : 1 ≤ accessThreads.toNat := by
    have : accessThreads.toNat ≠ 0 := fun h => ha (UInt8.toNat_inj.mp h)
    omega
  obtain ⟨hinv, hrej, hj⟩ := seqReachable_inv hs
  have hne : s.pool.workers ≠ [] := by
    intro h0; have := hinv.len; simp [h0] at this; omega
  have hem := (returned_all hinv.pool hne hr).2
  have hc := hinv.conserve
  rw [hrej, hj (by simp [hr]), List.append_nil, List.append_nil] at hc
  rw [search_eq_filterMap]
  exact hem.trans ((hc.trans hperm).filterMap _)

/-- **C02**: `search_parallel_light` and `search_parallel_light_callback` report the same multiset
as `search`, for all thread counts from 1 to 255 and all schedules. -/
theorem C02_search_parallel_light (c : Crypto Kw Seed ST DK) (edb : Edb) (threadCount : UInt8)
    (ht : threadCount ≠ 0) (r : SearchReq ST DK) (res : List Index)
    (h : SearchParallelLightRun c edb threadCount r res) : res.Perm (search c edb r) := by
  obtain ⟨Ls, s, hL, hs, hd, rfl⟩ := h
  have hn : threadCount.toNat ≠ 0 := fun h => ht (UInt8.toNat_inj.mp h)
  have hlt := threadCount.toNat_lt
  obtain ⟨Ls', hL', hperm⟩ := jobs_perm c r.token threadCount.toNat r.addCount.toNat
    (by omega) hlt
  have hcount : UInt8.ofNat threadCount.toNat = threadCount := by simp
  rw [hcount] at hL'
  have hLL : Ls = Ls' := Option.some.inj (hL.symm.trans hL')
  subst hLL
  have hinv := threads_inv hs
  have h0 : s.todo.flatten = [] := List.flatten_eq_nil_iff.mpr hd
  rw [h0] at hinv
  simp only [List.filterMap_nil, List.append_nil] at hinv
  rw [search_eq_filterMap]
  exact hinv.trans (hperm.filterMap _)

/-- **C02**: `search_parallel_callback` reports the same multiset as `search`, for all thread counts
from 1 to 255 and all schedules of job threads and both pools. -/
theorem C02_search_parallel_callback (c : Crypto Kw Seed ST DK) (edb : Edb)
    (rsaThreads accessThreads postThreads : UInt8) (h1 : rsaThreads ≠ 0) (h2 : accessThreads ≠ 0)
    (h3 : postThreads ≠ 0) (r : SearchReq ST DK) (res : List Index)
    (h : SearchParallelCallbackRun c edb rsaThreads accessThreads postThreads r res) :
    res.Perm (search c edb r) := by
  obtain ⟨Ls, s, hL, hs, hr, rfl⟩ := h
  have hn : rsaThreads.toNat ≠ 0 := fun h => h1 (UInt8.toNat_inj.mp h)
  have hnA : accessThreads.toNat ≠ 0 := fun h => h2 (UInt8.toNat_inj.mp h)
  have hnB : postThreads.toNat ≠ 0 := fun h => h3 (UInt8.toNat_inj.mp h)
  have hlt := rsaThreads.toNat_lt
  obtain ⟨Ls', hL', hperm⟩ := jobs_perm c r.token rsaThreads.toNat r.addCount.toNat (by omega) hlt
  have hcount : UInt8.ofNat rsaThreads.toNat = rsaThreads := by simp
  rw [hcount] at hL'
  have hLL : Ls = Ls' := Option.some.inj (hL.symm.trans hL')
  subst hLL
  have hp := pipe_returned (pipeReachable_inv hs) (by omega) (by omega) hr
  rw [search_eq_filterMap]
  have hsome : ∀ l : List Index, l.filterMap some = l := by intro l; simp
  rw [hsome] at hp
  exact hp.trans (hperm.filterMap _)

/-- **C02**: complete runs exist (the variants terminate) for every request. -/
theorem C02_runs_exist (c : Crypto Kw Seed ST DK) (edb : Edb) (hw : Nat) (hhw : hw ≤ 255)
    (accessThreads : UInt8) (r : SearchReq ST DK) :
    ∃ res, SearchParallelRun c edb hw accessThreads r res := by
  obtain ⟨Ls, hL, -⟩ := jobs_perm c r.token (Nat.max hw 2) r.addCount.toNat
    (by have := Nat.le_max_right hw 2; exact Nat.lt_of_lt_of_le (by decide) this)
    (by exact Nat.max_lt.mpr ⟨by omega, by decide⟩)
  obtain ⟨s, hs, hst⟩ := exists_stuck (R := SeqStep (access c edb r.derivationKey))
    (μ := Sys.weight) (fun s s' h => by cases h with | step h hj => exact sys_weight_step h)
    (ThreadPool.Sys.init accessThreads.toNat Ls)
  exact ⟨_, Ls, s, hL, hs, (seq_stuck hs hst).1, rfl⟩

/-- **C02**: the pipeline of `search_parallel_callback` can only stop with a complete run. -/
theorem C02_callback_runs_complete (c : Crypto Kw Seed ST DK) (edb : Edb)
    (rsaThreads accessThreads postThreads : UInt8) (r : SearchReq ST DK) (Ls : List (List ST))
    (hL : allJobs (countedJobs c rsaThreads r) = some Ls) (s : Pipe ST Index Index)
    (hs : PipeReachable (access c edb r.derivationKey) some accessThreads.toNat postThreads.toNat
      Ls s)
    (hst : ∀ s', ¬ PipeStep (access c edb r.derivationKey) some false s s') :
    SearchParallelCallbackRun c edb rsaThreads accessThreads postThreads r s.B.emitted :=
  ⟨Ls, s, hL, hs, (pipe_stuck (pipeReachable_inv hs) hst).2.1, rfl⟩

/-- Non-vacuity: on the toy instance with three matching entries, a run exists and reports them. -/
example : ∃ res, SearchParallelRun Toy.crypto (deliver Toy.crypto Toy.H [0, 1, 2, 3]) 4 3
      (searchRequest Toy.crypto (0, false) (clientRun Toy.crypto Map.empty Toy.H).2 true) res ∧
    res.Perm [9, 5, 5] := by
  obtain ⟨res, hres⟩ := C02_runs_exist Toy.crypto (deliver Toy.crypto Toy.H [0, 1, 2, 3]) 4
    (by decide) 3 (searchRequest Toy.crypto (0, false) (clientRun Toy.crypto Map.empty Toy.H).2 true)
  refine ⟨res, hres, ?_⟩
  have := C02_search_parallel _ _ 4 (by decide) 3 (by decide) _ res hres
  rwa [C04_search_delivered _ _ _ _ Toy.H_fits Toy.H_noCollision] at this

/-! ## C03 -/

/-- **C03 (part that holds)**: on machines with at most 255 hardware threads, `search_parallel`
terminates and its threads handle each position exactly once.  Missing: larger machines, see the
`_violated` theorems. -/
theorem C03_positions_once_partial (c : Crypto Kw Seed ST DK) (hw : Nat) (hhw : hw ≤ 255)
    (r : SearchReq ST DK) :
    ∃ Ls, allJobs (parallelJobs c hw r) = some Ls ∧
      Ls.flatten.Perm ((List.range r.addCount.toNat).map (fun p => c.eval^[p] r.token)) :=
  jobs_perm c r.token (Nat.max hw 2) r.addCount.toNat
    (by have := Nat.le_max_right hw 2; exact Nat.lt_of_lt_of_le (by decide) this)
    (by exact Nat.max_lt.mpr ⟨by omega, by decide⟩)

/-- **C03 is violated**: with 256 hardware threads the stride is 0 and `search_parallel` never
terminates as soon as there is one match. -/
theorem C03_diverges_violated (c : Crypto Kw Seed ST DK) (r : SearchReq ST DK)
    (h : r.addCount ≠ 0) : allJobs (parallelJobs c 256 r) = none := by
  have h0 : 0 < r.addCount.toNat := by
    have : r.addCount.toNat ≠ 0 := fun e => h (UInt32.toNat_inj.mp e)
    omega
  have hj : job c r.token (UInt8.ofNat 0) r.addCount.toNat (UInt8.ofNat 256) = none := by
    unfold job
    simp [h0]
  have hr : List.range 256 = 0 :: (List.range 255).map Nat.succ := by
    rw [← List.range_succ_eq_map]
  have hm : Nat.max 256 2 = 256 := rfl
  simp only [parallelJobs, allJobs, hm]
  rw [hr]
  simp only [List.map_cons, List.mapM_cons, id, hj]
  rfl

/-- **C03 is violated**: with 257 hardware threads the stride is 1, and the single match of a
search is reported at least twice by the job threads (each of the threads 0 and 256 handles
position 0). -/
theorem C03_duplicates_violated (c : Crypto Kw Seed ST DK) (tok : ST) (k : DK) :
    ∃ Ls, allJobs (parallelJobs c 257 { token := tok, derivationKey := k, addCount := 1 }) =
        some Ls ∧ Ls.flatten = [tok, tok] := by
  have hj : ∀ t, job c tok (UInt8.ofNat t) 1 (UInt8.ofNat 257) =
      some (if (UInt8.ofNat t).toNat = 0 then [tok] else []) := by
    intro t
    have hN : UInt8.ofNat 257 = 1 := rfl
    unfold job
    rw [hN]
    have h1 : strideLoop c ((1 : UInt8).toNat - 1) 1 ((UInt8.ofNat t).toNat + (1 : UInt8).toNat)
        (if UInt8.ofNat t ≠ 0 then c.eval^[(UInt8.ofNat t).toNat] tok else tok) = [] := by
      rw [strideLoop, if_neg]
      have : (1 : UInt8).toNat = 1 := rfl
      omega
    have h2 : (1 : UInt8) ≠ 0 := by decide
    simp only [h1, if_neg h2, List.append_nil]
    by_cases h0 : UInt8.ofNat t = 0
    · simp [h0]
    · have : (UInt8.ofNat t).toNat ≠ 0 := fun e => h0 (UInt8.toNat_inj.mp e)
      have h3 : ¬ (UInt8.ofNat t).toNat < 1 := by omega
      rw [if_neg h3, if_neg this]
  have hm : Nat.max 257 2 = 257 := rfl
  have h1 : (1 : UInt32).toNat = 1 := rfl
  simp only [parallelJobs, hm, h1]
  refine ⟨_, allJobs_map (List.range 257) _
    (fun t => if (UInt8.ofNat t).toNat = 0 then [tok] else []) (fun t _ => hj t), ?_⟩
  have hmap : (List.range 257).map (fun t => if (UInt8.ofNat t).toNat = 0 then [tok] else []) =
      ((List.range 257).map (fun t => decide ((UInt8.ofNat t).toNat = 0))).map
        (fun b => if b then [tok] else []) := by
    rw [List.map_map]; apply List.map_congr_left; intro t _; simp
  have hb : (List.range 257).map (fun t => decide ((UInt8.ofNat t).toNat = 0)) =
      true :: (List.replicate 255 false ++ [true]) := by
    set_option maxRecDepth 10000 in decide
  have hz : ∀ n : Nat, (List.replicate n ([] : List ST)).flatten = [] := by simp
  rw [hmap, hb, List.map_cons, List.map_append, List.map_replicate, List.flatten_cons,
    List.flatten_append, if_neg Bool.false_ne_true, hz]
  rfl

end Verif.Sophos
