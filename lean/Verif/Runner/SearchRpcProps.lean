import Verif.Runner.SearchRpc
import Verif.Sophos.Props
import Verif.Diana.Props
import Verif.ThreadPool.Props

/-!
# C46: the gRPC searches are complete whatever the number of hardware threads
-/

set_option linter.unusedSectionVars false

namespace Verif.Runner

open Verif ThreadPool

variable {Kw Seed ST DK : Type} [DecidableEq Kw]

/-! ## Sophos -/

theorem uint8_ne_zero {hw : Nat} (h : hw % 256 ≠ 0) : UInt8.ofNat hw ≠ 0 := by
  intro e
  have := congrArg UInt8.toNat e
  simp [UInt8.toNat_ofNat'] at this
  omega

theorem uint8_eq_zero {hw : Nat} (h : hw % 256 = 0) : UInt8.ofNat hw = 0 := by
  apply UInt8.toNat_inj.mp
  simp [UInt8.toNat_ofNat', h]

theorem threads_complete {α β : Type} (f : α → Option β) (Ls : List (List α)) :
    ∃ s, ThreadsReachable f Ls s ∧ s.Done := by
  have key : ∀ k (s : Threads α β), s.todo.flatten.length ≤ k →
      ∃ s', Relation.ReflTransGen (ThreadsStep f) s s' ∧ s'.Done := by
    intro k
    induction k with
    | zero =>
      intro s hk
      have h0 := List.length_eq_zero_iff.mp (Nat.le_zero.mp hk)
      exact ⟨s, .refl, fun l hl => List.flatten_eq_nil_iff.mp h0 l hl⟩
    | succ k ih =>
      intro s hk
      by_cases hd : s.Done
      · exact ⟨s, .refl, hd⟩
      · simp only [Threads.Done, not_forall] at hd
        obtain ⟨l, hl, hne⟩ := hd
        obtain ⟨t, ht⟩ := List.getElem?_of_mem hl
        cases l with
        | nil => exact absurd rfl hne
        | cons a rest =>
          have hst : ThreadsStep f s _ := .step t a rest ht
          have hp := (flatten_set ht).length_eq
          obtain ⟨s', h1, h2⟩ := ih { todo := s.todo.set t rest, emitted := s.emitted ++ (f a).toList } (show ((s.todo.set t rest).flatten).length ≤ k by
            simp only [List.length_cons] at hp; omega)
          exact ⟨s', h1.head hst, h2⟩
  obtain ⟨s, h1, h2⟩ := key _ { todo := Ls, emitted := [] } (Nat.le_refl _)
  exact ⟨s, h1, h2⟩

theorem light_exists (c : Sophos.Crypto Kw Seed ST DK) (edb : Sophos.Edb) (threads : UInt8)
    (r : Sophos.SearchReq ST DK) (Ls : List (List ST))
    (hL : Sophos.allJobs (Sophos.countedJobs c threads r) = some Ls) :
    ∃ res, Sophos.SearchParallelLightRun c edb threads r res := by
  obtain ⟨s, h1, h2⟩ := threads_complete (Sophos.access c edb r.derivationKey) Ls
  exact ⟨_, Ls, s, hL, h1, h2, rfl⟩

theorem callback_exists (c : Sophos.Crypto Kw Seed ST DK) (edb : Sophos.Edb) (threads nA nB : UInt8)
    (r : Sophos.SearchReq ST DK) (Ls : List (List ST))
    (hL : Sophos.allJobs (Sophos.countedJobs c threads r) = some Ls) :
    ∃ res, Sophos.SearchParallelCallbackRun c edb threads nA nB r res := by
  obtain ⟨s, h1, h2⟩ := exists_stuck (R := PipeStep (Sophos.access c edb r.derivationKey) (some : Index → _))
    (μ := Pipe.weight) (fun s s' => pipe_weight_step) (Pipe.init nA.toNat nB.toNat Ls)
  exact ⟨_, Sophos.C02_callback_runs_complete c edb threads nA nB r Ls hL s h1 h2⟩

theorem counted_exists (c : Sophos.Crypto Kw Seed ST DK) (threads : UInt8)
    (r : Sophos.SearchReq ST DK) : ∃ Ls, Sophos.allJobs (Sophos.countedJobs c threads r) = some Ls := by
  by_cases h : threads = 0
  · subst h; exact ⟨[], rfl⟩
  · have hn : threads.toNat ≠ 0 := fun e => h (UInt8.toNat_inj.mp e)
    obtain ⟨Ls, hL, -⟩ := Sophos.jobs_perm c r.token threads.toNat r.addCount.toNat (by omega) threads.toNat_lt
    exact ⟨Ls, by simpa [Sophos.countedJobs] using hL⟩

/-- Numbers of hardware threads for which the Sophos service works -/
def SophosThreads (hw : Nat) (async : Bool) : Prop := if async then hw % 256 ≠ 0 else hw ≤ 255

/-- **C46 (part that holds)**, Sophos: the service answers, and its replies are the results of the sequential
search, each once, if the search is asynchronous and `hw` is not a multiple of 256, or synchronous and
`hw ≤ 255`. Missing: the other machines, see `C46_sophos_violated`, `C46_sophos_sync_violated`. -/
theorem C46_sophos_partial (c : Sophos.Crypto Kw Seed ST DK) (hw : Nat) (async : Bool)
    (hhw : SophosThreads hw async) (edb : Sophos.Edb) (r : Sophos.SearchReq ST DK) :
    (∃ res, SophosReplies c hw async edb r res) ∧
    ∀ res, SophosReplies c hw async edb r res → res.Perm (Sophos.search c edb r) := by
  unfold SophosReplies
  unfold SophosThreads at hhw
  cases async with
  | false =>
    simp only [Bool.false_eq_true, if_false] at hhw ⊢
    exact ⟨Sophos.C02_runs_exist c edb hw hhw 2 r,
      fun res h => Sophos.C02_search_parallel c edb hw hhw 2 (by decide) r res h⟩
  | true =>
    simp only [if_true] at hhw ⊢
    obtain ⟨Ls, hL⟩ := counted_exists c (UInt8.ofNat hw) r
    split
    · exact ⟨callback_exists c edb _ 8 1 r Ls hL,
        fun res h => Sophos.C02_search_parallel_callback c edb _ 8 1 (uint8_ne_zero hhw) (by decide) (by decide) r res h⟩
    · split
      · exact ⟨light_exists c edb _ r Ls hL,
          fun res h => Sophos.C02_search_parallel_light c edb _ (uint8_ne_zero hhw) r res h⟩
      · exact ⟨⟨_, rfl⟩, fun res h => by rw [h, Sophos.C02_callback]⟩

/-- **C46 is violated**, Sophos: if `hardware_concurrency()` is 0 (unknown) or a multiple of 256, an asynchronous
search expecting at least two results gives no reply at all and status OK. -/
theorem C46_sophos_violated (c : Sophos.Crypto Kw Seed ST DK) (hw : Nat) (hhw : hw % 256 = 0)
    (edb : Sophos.Edb) (r : Sophos.SearchReq ST DK) (hr : 2 ≤ r.addCount.toNat) :
    (∃ res, SophosReplies c hw true edb r res) ∧ ∀ res, SophosReplies c hw true edb r res → res = [] := by
  unfold SophosReplies
  rw [uint8_eq_zero hhw]
  have hL : Sophos.allJobs (Sophos.countedJobs c 0 r) = some [] := rfl
  simp only [if_true]
  split
  · refine ⟨callback_exists c edb _ 8 1 r _ hL, ?_⟩
    rintro res ⟨Ls, s, hL', hs, hret, rfl⟩
    rw [hL] at hL'; obtain rfl := Option.some.inj hL'
    have := (C17_pipeline _ _ _ _ (by decide) (by decide) [] s hs).2.2 hret
    simpa using this
  · refine ⟨light_exists c edb _ r _ hL, ?_⟩
    rintro res ⟨Ls, s, hL', hs, hd, rfl⟩
    rw [hL] at hL'; obtain rfl := Option.some.inj hL'
    have := threads_inv hs
    simp only [List.flatten_nil, List.filterMap_nil, List.perm_nil, List.append_eq_nil_iff] at this
    exact this.1

/-- **C46 is violated**, Sophos: with 256 hardware threads a synchronous search with a result never ends. -/
theorem C46_sophos_sync_violated (c : Sophos.Crypto Kw Seed ST DK) (edb : Sophos.Edb)
    (r : Sophos.SearchReq ST DK) (hr : r.addCount ≠ 0) : ¬ ∃ res, SophosReplies c 256 false edb r res := by
  rintro ⟨res, h⟩
  simp only [SophosReplies, Bool.false_eq_true, if_false] at h
  obtain ⟨Ls, s, hL, -⟩ := h
  rw [Sophos.C03_diverges_violated c r hr] at hL
  cases hL

/-- Documents 5, 5, 9 are inserted under a keyword. On a machine with 4 hardware threads the asynchronous search
reports them; if `hardware_concurrency()` is 0 it reports nothing. -/
example :
    (∃ res, SophosReplies Sophos.Toy.crypto 4 true (Sophos.deliver Sophos.Toy.crypto Sophos.Toy.H [0, 1, 2, 3])
      (Sophos.searchRequest Sophos.Toy.crypto (0, false) (Sophos.clientRun Sophos.Toy.crypto Map.empty Sophos.Toy.H).2 true)
      res ∧ res.Perm [9, 5, 5]) ∧
    ∀ res, SophosReplies Sophos.Toy.crypto 0 true (Sophos.deliver Sophos.Toy.crypto Sophos.Toy.H [0, 1, 2, 3])
      (Sophos.searchRequest Sophos.Toy.crypto (0, false) (Sophos.clientRun Sophos.Toy.crypto Map.empty Sophos.Toy.H).2 true)
      res → res = [] := by
  constructor
  · obtain ⟨⟨res, h⟩, hall⟩ := C46_sophos_partial Sophos.Toy.crypto 4 true (by simp [SophosThreads])
      (Sophos.deliver Sophos.Toy.crypto Sophos.Toy.H [0, 1, 2, 3])
      (Sophos.searchRequest Sophos.Toy.crypto (0, false) (Sophos.clientRun Sophos.Toy.crypto Map.empty Sophos.Toy.H).2 true)
    refine ⟨res, h, ?_⟩
    have := hall res h
    rwa [Sophos.C04_search_delivered _ _ _ _ Sophos.Toy.H_fits Sophos.Toy.H_noCollision] at this
  · exact (C46_sophos_violated _ 0 (by decide) _ _ (by decide)).2

/-! ## Diana -/

/-- **C46 (part that holds)**, Diana: for a request of the client, an asynchronous search on a machine where `hw` is
not a multiple of 256 answers with the results of the sequential search. Missing: the other machines, see
`C46_diana_violated`. -/
theorem C46_diana_partial (c : Diana.Crypto Kw Index) (hw : Nat) (hhw : hw % 256 ≠ 0) (edb : Diana.Edb Index)
    (m : Map Kw UInt32) (w : Kw) :
    (∃ res, DianaReplies c hw true edb (Diana.searchRequest c m w) res) ∧
    ∀ res, DianaReplies c hw true edb (Diana.searchRequest c m w) res →
      ∃ res', Diana.search c edb (Diana.searchRequest c m w) false = some (res', edb) ∧ res.Perm res' := by
  obtain ⟨trace, edb', hrun⟩ := Diana.C08_terminates c edb m w (UInt8.ofNat hw) (uint8_ne_zero hhw) false
  have hro : ∀ res edb', Diana.search c edb (Diana.searchRequest c m w) false = some (res, edb') → edb' = edb := by
    intro res edb' h
    have := Diana.C07_readonly c ⟨m, edb⟩ ⟨m, edb'⟩ w (some res) (by simp [Diana.step, h])
    exact congrArg Diana.Sys.edb this
  unfold DianaReplies
  simp only [if_true]
  split
  · refine ⟨⟨_, trace, edb', hrun, rfl⟩, ?_⟩
    rintro res ⟨trace', edb'', h, rfl⟩
    obtain ⟨⟨res', h1, h2⟩, -⟩ := Diana.C08_callback c edb m w _ (uint8_ne_zero hhw) false (by simp) trace' edb'' h
    have := hro _ _ h1
    exact ⟨res', by rw [h1, this], h2⟩
  · have hs := Diana.C08_list c edb m w _ (uint8_ne_zero hhw) false (by simp) trace edb' hrun
    refine ⟨⟨_, _, hs⟩, ?_⟩
    rintro res ⟨edb'', h⟩
    have := hro _ _ h
    exact ⟨res, by rw [h, this], .refl _⟩

/-- **C46**, Diana: the synchronous search uses 8 threads on every machine and answers with the documents inserted
under the keyword, the oldest first, if no update was lost (see C09 for lost updates). -/
theorem C46_diana_sync (c : Diana.Crypto Kw Index) (hw : Nat) (H : List (Kw × Index)) (w : Kw)
    (hfit : ∀ v, (Diana.Spec.docs v H).length < 2 ^ 32)
    (hnc : Diana.NoCollision c (fun v => (Diana.Spec.docs v H).length))
    (s : Diana.Sys Kw Index) (outs : List (List Index))
    (hrun : Diana.run c Diana.Sys.init (H.map (fun e => Diana.Op.insert e.1 e.2)) = some (s, outs)) :
    (∃ res, DianaReplies c hw false s.edb (Diana.searchRequest c s.counters w) res) ∧
    ∀ res, DianaReplies c hw false s.edb (Diana.searchRequest c s.counters w) res → res = Diana.Spec.docs w H := by
  obtain ⟨trace, edb', hr⟩ := Diana.C08_terminates c s.edb s.counters w 8 (by decide) false
  have hvec : ∀ trace edb', Diana.ParallelRun c s.edb (Diana.searchRequest c s.counters w) 8 false trace edb' →
      Diana.vectorResult 0 (Diana.searchRequest c s.counters w).addCount
        (List.replicate (Diana.searchRequest c s.counters w).addCount.toNat 0) trace = Diana.Spec.docs w H := by
    intro trace edb' h
    have h0 := Diana.C08_vector c H w hfit hnc s outs hrun 8 (by decide) 0 trace edb' h
    rw [← h0]
    unfold Diana.vectorResult
    simp only [List.length_replicate, Nat.lt_irrefl, if_false, List.length_nil, List.nil_append, Nat.sub_zero]
    by_cases hz : 0 < (Diana.searchRequest c s.counters w).addCount.toNat
    · simp [hz]
    · have : (Diana.searchRequest c s.counters w).addCount.toNat = 0 := by omega
      simp [this]
  unfold DianaReplies
  simp only [Bool.false_eq_true, if_false]
  split
  · rename_i hz
    refine ⟨⟨_, rfl⟩, ?_⟩
    rintro res rfl
    have := (Diana.vector_slots c s.edb s.counters w 8 (by decide) false (by simp) trace edb' 0
      (List.replicate (Diana.searchRequest c s.counters w).addCount.toNat 0) hr).1
    rw [hvec _ _ hr, hz] at this
    exact (List.length_eq_zero_iff.mp (by simpa using this)).symm
  · exact ⟨⟨_, trace, edb', hr, rfl⟩, fun res ⟨t, e, h, hres⟩ => by rw [hres, hvec _ _ h]⟩

/-- **C46 is violated**, Diana: if `hardware_concurrency()` is 0 (unknown) or a multiple of 256, an asynchronous
search expecting at least two results divides by zero: it has no run. -/
theorem C46_diana_violated (c : Diana.Crypto Kw Index) (hw : Nat) (hhw : hw % 256 = 0) (edb : Diana.Edb Index)
    (r : Diana.SearchReq c) (hr : 2 ≤ r.addCount.toNat) :
    Diana.ranges (UInt8.ofNat hw) r.addCount = none ∧ ¬ ∃ res, DianaReplies c hw true edb r res := by
  have h0 : Diana.ranges (UInt8.ofNat hw) r.addCount = none := by
    rw [uint8_eq_zero hhw]; simp [Diana.ranges]
  refine ⟨h0, ?_⟩
  rintro ⟨res, h⟩
  simp only [DianaReplies, if_true, if_pos hr] at h
  obtain ⟨trace, edb', ⟨Ls, s, hj, -⟩, -⟩ := h
  have hne : r.addCount ≠ 0 := by rintro e; rw [e] at hr; exact absurd hr (by decide)
  simp [Diana.jobs, hne, h0] at hj

/-- Two documents inserted; 0 and 8 hardware threads -/
example (s : Diana.Sys Bool Index) (outs : List (List Index))
    (hrun : Diana.run Diana.Toy.crypto Diana.Sys.init [.insert true 5, .insert true 9] = some (s, outs)) :
    (¬ ∃ res, DianaReplies Diana.Toy.crypto 0 true s.edb (Diana.searchRequest Diana.Toy.crypto s.counters true) res) ∧
    ∃ res, DianaReplies Diana.Toy.crypto 0 false s.edb (Diana.searchRequest Diana.Toy.crypto s.counters true) res ∧
      res = [5, 9] := by
  constructor
  · refine (C46_diana_violated _ 0 (by decide) _ _ ?_).2
    simp only [Diana.run, Diana.step, Option.bind_some, Option.map_some, Option.some.injEq, Prod.mk.injEq] at hrun
    obtain ⟨rfl, -⟩ := hrun
    decide
  · obtain ⟨⟨res, h⟩, hall⟩ := C46_diana_sync Diana.Toy.crypto 0 [(true, 5), (true, 9)] true
      (by intro v; cases v <;> decide) (Diana.Toy.noCollision _ (by intro v; cases v <;> decide)) s outs hrun
    exact ⟨res, h, hall res h⟩

end Verif.Runner
