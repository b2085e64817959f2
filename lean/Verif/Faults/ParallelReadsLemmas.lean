import Verif.Faults.ParallelReads
import Verif.Faults.SlotLemmas
import Verif.Sophos.ParallelProps

/-! # Helper lemmas for parallel searches whose reads fail -/

set_option linter.unusedSectionVars false

namespace Verif.Faults

open Verif Sophos ThreadPool

variable {Kw Seed ST DK : Type} [DecidableEq Kw]

theorem perm_lift {α β : Type} (g : α → β) (L : List β) (M : List α) (h : L.Perm (M.map g)) :
    ∃ L' : List α, L'.map g = L ∧ L'.Perm M := by
  induction L generalizing M with
  | nil =>
    have : M = [] := by simpa using h.symm.eq_nil
    exact ⟨[], rfl, by rw [this]⟩
  | cons b L ih =>
    have hb : b ∈ M.map g := h.subset (by simp)
    obtain ⟨m, hm, rfl⟩ := List.mem_map.mp hb
    obtain ⟨s, t, rfl⟩ := List.append_of_mem hm
    have h2 : L.Perm ((s ++ t).map g) := by
      have : (g m :: L).Perm (g m :: (s ++ t).map g) := by
        refine h.trans ?_
        rw [List.map_append, List.map_cons, List.map_append]
        exact List.perm_middle
      exact this.cons_inv
    obtain ⟨L', h3, h4⟩ := ih _ h2
    exact ⟨m :: L', by simp [h3], (h4.cons m).trans List.perm_middle.symm⟩

theorem split_lift {α β : Type} (g : α → β) (Ls : List (List β)) (L : List α) (h : L.map g = Ls.flatten) :
    ∃ Ls' : List (List α), Ls'.map (·.map g) = Ls ∧ Ls'.flatten = L := by
  induction Ls generalizing L with
  | nil => exact ⟨[], rfl, by simpa using h.symm⟩
  | cons l Ls ih =>
    rw [List.flatten_cons, List.map_eq_append_iff] at h
    obtain ⟨a, b, rfl, ha, hb⟩ := h
    obtain ⟨Ls', h1, h2⟩ := ih b hb
    exact ⟨a :: Ls', by simp [h1, ha], by simp [h2]⟩

theorem marks_exist {α : Type} (n : Nat) (f : Nat → α) (L : List (α × Bool))
    (h : (L.map Prod.fst).Perm ((List.range n).map f)) :
    ∃ bad : Nat → Bool, L.Perm ((List.range n).map fun p => (f p, bad p)) := by
  obtain ⟨L', h1, h2⟩ := perm_lift Prod.fst _ L h.symm
  have hlen : L'.length = n := by simpa using congrArg List.length h1
  refine ⟨fun p => (L'[p]?.map Prod.snd).getD false, h2.symm.trans (List.Perm.of_eq ?_)⟩
  apply List.ext_getElem
  · simp [hlen]
  · intro i hi hi'
    have : (L'.map Prod.fst)[i]'(by simpa using hi) = ((List.range n).map f)[i]'(by simpa [hlen] using hi) := by
      simp only [h1]
    simp only [List.getElem_map, List.getElem_range] at this ⊢
    rw [List.getElem?_eq_getElem hi]
    simp [← this]

theorem marked_filterMap (c : Sophos.Crypto Kw Seed ST DK) (edb : Edb) (k : DK) (n : Nat) (st : ST)
    (bad : Nat → Bool) :
    ((List.range n).map fun p => (c.eval^[p] st, bad p)).filterMap (accessF c edb k) =
      sophosLoop c edb bad k 0 n st := by
  rw [sophosLoop_eq, List.filterMap_map, ← List.range_eq_range']
  rfl

theorem variant_jobs (c : Sophos.Crypto Kw Seed ST DK) (v : Variant) (hv : v.Ok) (r : SearchReq ST DK) :
    ∃ Ls, v.jobs c r = some Ls ∧ Ls.flatten.Perm ((List.range r.addCount.toNat).map (fun p => c.eval^[p] r.token)) := by
  have counted : ∀ t : UInt8, t ≠ 0 → ∃ Ls, allJobs (countedJobs c t r) = some Ls ∧
      Ls.flatten.Perm ((List.range r.addCount.toNat).map (fun p => c.eval^[p] r.token)) := by
    intro t ht
    have hn : t.toNat ≠ 0 := fun h => ht (UInt8.toNat_inj.mp h)
    obtain ⟨Ls, h1, h2⟩ := jobs_perm c r.token t.toNat r.addCount.toNat (by omega) t.toNat_lt
    have hcount : UInt8.ofNat t.toNat = t := by simp
    rw [hcount] at h1
    exact ⟨Ls, h1, h2⟩
  cases v with
  | pooled hw a => exact C03_positions_once_partial c hw hv.1 r
  | light t => exact counted t hv
  | callback rsa a p => exact counted rsa hv.1

theorem schedule_emits (c : Sophos.Crypto Kw Seed ST DK) (edb : Edb) (k : DK) (v : Variant) (hv : v.Ok)
    (Ls : List (List (ST × Bool))) (res : List Index) (h : v.Schedule c edb k Ls res) :
    res.Perm (Ls.flatten.filterMap (accessF c edb k)) := by
  cases v with
  | pooled hw a =>
    obtain ⟨s, hs, hr, rfl⟩ := h
    have hn : a.toNat ≠ 0 := fun h => hv.2 (UInt8.toNat_inj.mp h)
    obtain ⟨hinv, hrej, hj⟩ := seqReachable_inv hs
    have hne : s.pool.workers ≠ [] := by
      intro h0; have := hinv.len; simp [h0] at this; omega
    have hem := (returned_all hinv.pool hne hr).2
    have hc := hinv.conserve
    rw [hrej, hj (by simp [hr]), List.append_nil, List.append_nil] at hc
    exact hem.trans (hc.filterMap _)
  | light t =>
    obtain ⟨s, hs, hd, rfl⟩ := h
    have hinv := threads_inv hs
    have h0 : s.todo.flatten = [] := List.flatten_eq_nil_iff.mpr hd
    rw [h0] at hinv
    simpa only [List.filterMap_nil, List.append_nil] using hinv
  | callback rsa a p =>
    obtain ⟨s, hs, hr, rfl⟩ := h
    have hnA : a.toNat ≠ 0 := fun h => hv.2.1 (UInt8.toNat_inj.mp h)
    have hnB : p.toNat ≠ 0 := fun h => hv.2.2 (UInt8.toNat_inj.mp h)
    have hp := pipe_returned (pipeReachable_inv hs) (by omega) (by omega) hr
    have hsome : ∀ l : List Index, l.filterMap some = l := by intro l; simp
    rwa [hsome] at hp

theorem threads_end {α β : Type} (f : α → Option β) (s : Threads α β) :
    ∃ s', Relation.ReflTransGen (ThreadsStep f) s s' ∧ s'.Done := by
  induction h : s.todo.flatten.length using Nat.strongRecOn generalizing s with
  | ind m ih =>
    by_cases hd : s.Done
    · exact ⟨s, .refl, hd⟩
    · have : ∃ l ∈ s.todo, l ≠ [] := by
        by_cases hx : ∃ l ∈ s.todo, l ≠ []
        · exact hx
        · exact absurd (fun l hl => Classical.byContradiction fun hne => hx ⟨l, hl, hne⟩) hd
      obtain ⟨l, hl, hne⟩ := this
      obtain ⟨t, ht⟩ := List.getElem?_of_mem hl
      cases l with
      | nil => exact absurd rfl hne
      | cons a rest =>
        have hstep := ThreadsStep.step (f := f) (s := s) t a rest ht
        have hlen := (flatten_set ht).length_eq
        rw [List.length_cons] at hlen
        obtain ⟨s', h1, h2⟩ := ih (s.todo.set t rest).flatten.length (by omega) ⟨s.todo.set t rest, s.emitted ++ (f a).toList⟩ rfl
        exact ⟨s', .head hstep h1, h2⟩

theorem schedule_exists (c : Sophos.Crypto Kw Seed ST DK) (edb : Edb) (k : DK) (v : Variant)
    (Ls : List (List (ST × Bool))) : ∃ res, v.Schedule c edb k Ls res := by
  cases v with
  | pooled hw a =>
    obtain ⟨s, hs, hst⟩ := exists_stuck (R := SeqStep (accessF c edb k))
      (μ := ThreadPool.Sys.weight) (fun s s' h => by cases h with | step h hj => exact sys_weight_step h)
      (ThreadPool.Sys.init a.toNat Ls)
    exact ⟨_, s, hs, (seq_stuck hs hst).1, rfl⟩
  | light t =>
    obtain ⟨s, hs, hd⟩ := threads_end (accessF c edb k) { todo := Ls, emitted := [] }
    exact ⟨_, s, hs, hd, rfl⟩
  | callback rsa a p =>
    obtain ⟨s, hs, hst⟩ := exists_stuck (R := PipeStep (accessF c edb k) (some : Index → Option Index))
      (μ := Pipe.weight) (fun s s' h => pipe_weight_step h) (Pipe.init a.toNat p.toNat Ls)
    exact ⟨_, s, hs, (pipe_stuck (pipeReachable_inv hs) hst).2.1, rfl⟩

theorem sophosRun_last (c : Sophos.Crypto Kw Seed ST DK) (g : ST × DK) (ops : List (Op Kw Index)) (op : Op Kw Index)
    (s : Sophos.Sys Kw) :
    (sophosRun c g s (ops ++ [op])).getLast? =
      some (sophosStep c g (ops.foldl (fun s op => (sophosStep c g s op).1) s) op).2 := by
  induction ops generalizing s with
  | nil => simp [sophosRun]
  | cons o ops ih =>
    have := ih (sophosStep c g s o).1
    simp only [List.cons_append, sophosRun, List.foldl_cons]
    rw [List.getLast?_cons, this]
    rfl

end Verif.Faults
