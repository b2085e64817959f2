import Verif.Live.SophosLemmas
import Verif.Live.DianaLemmas
import Verif.Sophos.Props
import Verif.Diana.Props

/-!
# Searches that run while updates are stored: C52

The client has made the insertions `H0` when it asks for the search of `w`; it or other users of the same
counters go on with the insertions `H1`. The server has stored the updates at positions `before` when the
search begins and stores those at positions `during` while it runs.

Full statement: the result is that of a search at one moment between the beginning and the end. It holds for the
sequential Sophos searches if the updates of the keyword arrive in the order of their insertion; it fails for all other
searches, which give all documents stored before, and some of those stored meanwhile.
-/

set_option linter.unusedSectionVars false

namespace Verif.Live

open Verif ThreadPool

/-! ## Sophos -/

section Sophos

open Sophos

variable {Kw Seed ST DK : Type} [DecidableEq Kw]

/-- **C52**: `search` and `search_callback` of Sophos, while updates of the keyword are stored in the order of
their insertion, give what a search at one moment gives. -/
theorem C52_sophos_moment (c : Crypto Kw Seed ST DK) (g : ST × DK) (H0 H1 : List (Kw × Index)) (w : Kw)
    (hfit : Fits (H0 ++ H1)) (hnc : NoCollision c (H0 ++ H1)) (before during : List Nat) (us : List (List UpdateReq))
    (hus : us.flatten.map some = during.map (fun k => (clientRun c Map.empty (H0 ++ H1)).1[k]?))
    (hord : Spec.InOrder w H0 during) :
    ∃ P, Spec.Moment before during P ∧
      sophosSearch c (searchRequest c g (clientRun c Map.empty H0).2 w) (deliver c (H0 ++ H1) before) us =
        (Spec.documents w H0 P).reverse :=
  sequential_moment c g H0 H1 w hfit hnc before during us hus hord

/-- **C52 (part that holds)**: whatever the order of the updates, `search` and `search_callback` of Sophos give
all documents stored before, some of those stored meanwhile, and nothing else, newest first. Missing: one moment. -/
theorem C52_sophos_sequential_partial (c : Crypto Kw Seed ST DK) (g : ST × DK) (H0 H1 : List (Kw × Index)) (w : Kw)
    (hfit : Fits (H0 ++ H1)) (hnc : NoCollision c (H0 ++ H1)) (before during : List Nat) (us : List (List UpdateReq))
    (hus : us.flatten.map some = during.map (fun k => (clientRun c Map.empty (H0 ++ H1)).1[k]?)) :
    ∃ P, Spec.Seen before during P ∧
      sophosSearch c (searchRequest c g (clientRun c Map.empty H0).2 w) (deliver c (H0 ++ H1) before) us =
        (Spec.documents w H0 P).reverse := by
  obtain ⟨E, h1, h2, -⟩ := sequential_mixed c (searchRequest c g (clientRun c Map.empty H0).2 w)
    (deliver c (H0 ++ H1) before) us (keysOf_nodup c g H0 H1 w hfit hnc)
  obtain ⟨P, h3, h4⟩ := mixed_search c g H0 H1 w hfit hnc before during us.flatten hus E h1
  exact ⟨P, h3, h2.trans h4⟩

/-- A run with a pool whose job threads handle every position once -/
theorem pool_seen (c : Crypto Kw Seed ST DK) (g : ST × DK) (H0 H1 : List (Kw × Index)) (w : Kw)
    (hfit : Fits (H0 ++ H1)) (hnc : NoCollision c (H0 ++ H1)) (before during : List Nat)
    (jobs : List (Option (List ST))) (accessThreads : UInt8) (ha : accessThreads ≠ 0)
    (hjobs : ∃ Ls, allJobs jobs = some Ls ∧ Ls.flatten.Perm
      ((List.range (searchRequest c g (clientRun c Map.empty H0).2 w).addCount.toNat).map
        (fun p => c.eval^[p] (searchRequest c g (clientRun c Map.empty H0).2 w).token)))
    (stored : List UpdateReq) (hst : stored.map some = during.map (fun k => (clientRun c Map.empty (H0 ++ H1)).1[k]?))
    (res : List Index)
    (h : PoolRun c (deliver c (H0 ++ H1) before) jobs accessThreads
      (searchRequest c g (clientRun c Map.empty H0).2 w) stored res) :
    ∃ P, Spec.Seen before during P ∧ res.Perm (Spec.documents w H0 P) := by
  obtain ⟨Ls, s, hL, hs, hr, hh, rfl, rfl⟩ := h
  obtain ⟨Ls', hL', hperm⟩ := hjobs
  have hLL : Ls = Ls' := Option.some.inj (hL.symm.trans hL')
  subst hLL
  have hn : 1 ≤ accessThreads.toNat := by
    have : accessThreads.toNat ≠ 0 := fun h => ha (UInt8.toNat_inj.mp h)
    omega
  obtain ⟨hreach, Es, hE⟩ := inv_reachable c _ _ (fun x : ThreadPool.Sys ST ST => x.pool.emitted) _ _ rfl s hs
  obtain ⟨hinv, hrej, hj⟩ := seqReachable_inv hreach
  have hne : s.threads.pool.workers ≠ [] := by
    intro h0; have := hinv.len; simp [h0] at this; omega
  have hem := (returned_all hinv.pool hne hr).2
  have hc := hinv.conserve
  rw [hrej, hj (by simp [hr]), List.append_nil, List.append_nil] at hc
  have hsome : ∀ l : List ST, l.filterMap some = l := by intro l; simp
  rw [hsome] at hem
  obtain ⟨E, h1, h2⟩ := threads_mixed c _ _ _ s Es hE hh (hem.trans (hc.trans hperm))
    (keysOf_nodup c g H0 H1 w hfit hnc)
  obtain ⟨P, h3, h4⟩ := mixed_search c g H0 H1 w hfit hnc before during s.stored hst E h1
  exact ⟨P, h3, h2.trans (h4 ▸ List.reverse_perm _)⟩

/-- **C52 (part that holds)**: the same for `search_parallel`, for all machines with at most 255 hardware
threads, all pool sizes and all schedules. Missing: one moment. -/
theorem C52_sophos_parallel_partial (c : Crypto Kw Seed ST DK) (g : ST × DK) (H0 H1 : List (Kw × Index)) (w : Kw)
    (hfit : Fits (H0 ++ H1)) (hnc : NoCollision c (H0 ++ H1)) (before during : List Nat)
    (hw : Nat) (hhw : hw ≤ 255) (accessThreads : UInt8) (ha : accessThreads ≠ 0)
    (stored : List UpdateReq) (hst : stored.map some = during.map (fun k => (clientRun c Map.empty (H0 ++ H1)).1[k]?))
    (res : List Index)
    (h : SearchParallelRun c (deliver c (H0 ++ H1) before) hw accessThreads
      (searchRequest c g (clientRun c Map.empty H0).2 w) stored res) :
    ∃ P, Spec.Seen before during P ∧ res.Perm (Spec.documents w H0 P) :=
  pool_seen c g H0 H1 w hfit hnc before during _ accessThreads ha
    (jobs_perm c _ (Nat.max hw 2) _
      (by have := Nat.le_max_right hw 2; exact Nat.lt_of_lt_of_le (by decide) this)
      (by exact Nat.max_lt.mpr ⟨by omega, by decide⟩)) stored hst res h

theorem countedJobs_perm (c : Crypto Kw Seed ST DK) (threadCount : UInt8) (ht : threadCount ≠ 0) (r : SearchReq ST DK) :
    ∃ Ls, allJobs (countedJobs c threadCount r) = some Ls ∧
      Ls.flatten.Perm ((List.range r.addCount.toNat).map (fun p => c.eval^[p] r.token)) := by
  have hn : threadCount.toNat ≠ 0 := fun h => ht (UInt8.toNat_inj.mp h)
  obtain ⟨Ls, hL, hperm⟩ := jobs_perm c r.token threadCount.toNat r.addCount.toNat (by omega) threadCount.toNat_lt
  have hcount : UInt8.ofNat threadCount.toNat = threadCount := by simp
  rw [hcount] at hL
  exact ⟨Ls, hL, hperm⟩

/-- **C52 (part that holds)**: the same for `search_parallel_callback`. Missing: one moment. -/
theorem C52_sophos_callback_partial (c : Crypto Kw Seed ST DK) (g : ST × DK) (H0 H1 : List (Kw × Index)) (w : Kw)
    (hfit : Fits (H0 ++ H1)) (hnc : NoCollision c (H0 ++ H1)) (before during : List Nat)
    (rsaThreads accessThreads : UInt8) (hr : rsaThreads ≠ 0) (ha : accessThreads ≠ 0)
    (stored : List UpdateReq) (hst : stored.map some = during.map (fun k => (clientRun c Map.empty (H0 ++ H1)).1[k]?))
    (res : List Index)
    (h : SearchParallelCallbackRun c (deliver c (H0 ++ H1) before) rsaThreads accessThreads
      (searchRequest c g (clientRun c Map.empty H0).2 w) stored res) :
    ∃ P, Spec.Seen before during P ∧ res.Perm (Spec.documents w H0 P) :=
  pool_seen c g H0 H1 w hfit hnc before during _ accessThreads ha (countedJobs_perm c rsaThreads hr _) stored hst res h

/-- **C52 (part that holds)**: the same for `search_parallel_light` and `search_parallel_light_callback`.
Missing: one moment. -/
theorem C52_sophos_light_partial (c : Crypto Kw Seed ST DK) (g : ST × DK) (H0 H1 : List (Kw × Index)) (w : Kw)
    (hfit : Fits (H0 ++ H1)) (hnc : NoCollision c (H0 ++ H1)) (before during : List Nat)
    (threadCount : UInt8) (ht : threadCount ≠ 0)
    (stored : List UpdateReq) (hst : stored.map some = during.map (fun k => (clientRun c Map.empty (H0 ++ H1)).1[k]?))
    (res : List Index)
    (h : SearchParallelLightRun c (deliver c (H0 ++ H1) before) threadCount
      (searchRequest c g (clientRun c Map.empty H0).2 w) stored res) :
    ∃ P, Spec.Seen before during P ∧ res.Perm (Spec.documents w H0 P) := by
  obtain ⟨Ls, s, hL, hs, hd, hh, rfl, rfl⟩ := h
  obtain ⟨Ls', hL', hperm⟩ := countedJobs_perm c threadCount ht (searchRequest c g (clientRun c Map.empty H0).2 w)
  have hLL : Ls = Ls' := Option.some.inj (hL.symm.trans hL')
  subst hLL
  obtain ⟨hreach, Es, hE⟩ := inv_reachable c _ _ (fun x : Threads ST ST => x.emitted) _ _ rfl s hs
  have hinv := threads_inv hreach
  have h0 : s.threads.todo.flatten = [] := List.flatten_eq_nil_iff.mpr hd
  have hsome : ∀ l : List ST, l.filterMap some = l := by intro l; simp
  rw [h0, hsome, hsome, List.append_nil] at hinv
  obtain ⟨E, h1, h2⟩ := threads_mixed c _ _ _ s Es hE hh (hinv.trans hperm) (keysOf_nodup c g H0 H1 w hfit hnc)
  obtain ⟨P, h3, h4⟩ := mixed_search c g H0 H1 w hfit hnc before during s.stored hst E h1
  exact ⟨P, h3, h2.trans (h4 ▸ List.reverse_perm _)⟩

/-- **C52**: `search_parallel` has complete runs during which any given updates are stored. -/
theorem C52_runs_exist (c : Crypto Kw Seed ST DK) (edb : Edb) (hw : Nat) (hhw : hw ≤ 255) (accessThreads : UInt8)
    (r : SearchReq ST DK) (us : List UpdateReq) : ∃ res, SearchParallelRun c edb hw accessThreads r us res := by
  obtain ⟨Ls, hL, -⟩ := jobs_perm c r.token (Nat.max hw 2) r.addCount.toNat
    (by have := Nat.le_max_right hw 2; exact Nat.lt_of_lt_of_le (by decide) this)
    (by exact Nat.max_lt.mpr ⟨by omega, by decide⟩)
  obtain ⟨x, hx, hst⟩ := exists_stuck (R := SeqStep (some : ST → Option ST))
    (μ := ThreadPool.Sys.weight) (fun s s' h => by cases h with | step h hj => exact sys_weight_step h)
    (ThreadPool.Sys.init accessThreads.toNat Ls)
  have h1 := run_puts c r.derivationKey (fun a b : ThreadPool.Sys ST ST => ∃ l, SeqStep some l a b)
    (fun x => x.pool.emitted) us (State.init (ThreadPool.Sys.init accessThreads.toNat Ls) edb)
  obtain ⟨s', h2, h3, h4⟩ := run_lift c r.derivationKey (fun a b : ThreadPool.Sys ST ST => ∃ l, SeqStep some l a b)
    (fun x => x.pool.emitted) (fun a b h => by obtain ⟨l, h⟩ := h; exact seqStep_looked l a b h) _ _ hx
    { State.init (ThreadPool.Sys.init accessThreads.toNat Ls) edb with edb := serverRun edb us, stored := [] ++ us } rfl
  refine ⟨_, Ls, _, hL, (h1.trans h2).trans (run_reports c _ _ _ s'.held s' rfl), ?_, rfl, ?_, rfl⟩
  · rw [h3]
    exact (seq_stuck hx hst).1
  · rw [h4, List.nil_append]

end Sophos

/-! ## Diana -/

section Diana

open Diana

variable {Kw V : Type} [DecidableEq Kw]

/-- **C52 (part that holds)**: `DianaServer::search` gives all documents stored before, some of those stored
meanwhile, and nothing else, oldest first. Missing: one moment. -/
theorem C52_diana_sequential_partial (c : Crypto Kw V) (H0 H1 : List (Kw × V)) (w : Kw)
    (hfit : ∀ v, (Diana.Spec.docs v (H0 ++ H1)).length < 2 ^ 32)
    (hnc : NoCollision c (fun v => (Diana.Spec.docs v (H0 ++ H1)).length)) (before during : List Nat)
    (us : List (List (UpdateReq V)))
    (hus : us.flatten.map some = during.map (fun k => (clientRun c Map.empty (H0 ++ H1)).1[k]?)) :
    ∃ P, Spec.Seen before during P ∧
      dianaSearch c (searchRequest c (clientRun c Map.empty H0).2 w) (dianaDeliver c (H0 ++ H1) before) us =
        some (Spec.documents w H0 P) := by
  have hle : (Diana.Spec.docs w H0).length ≤ (Diana.Spec.docs w (H0 ++ H1)).length := by
    simp [Diana.Spec.docs]
  have hlt := Nat.lt_of_le_of_lt hle (hfit w)
  obtain ⟨hcnt, -⟩ := diana_request c H0 w hlt
  obtain ⟨E, h1, h2⟩ := dianaLoop_mixed c (leavesOf c w (Diana.Spec.docs w H0).length)
    (dianaDeliver c (H0 ++ H1) before) us (nodup_tokens c _ hnc w _ hle)
  obtain ⟨P, h3, h4⟩ := dianaMixed_slots c H0 H1 w hfit hnc before during us.flatten hus E h1
  refine ⟨P, h3, ?_⟩
  have h5 := search_request c E _ w _ hcnt hlt false
  rw [← slotsOpt_docs, ← h4, List.filterMap_map]
  have h6 : dianaLoop c (leavesOf c w (Diana.Spec.docs w H0).length) (dianaDeliver c (H0 ++ H1) before) us =
      (List.range (Diana.Spec.docs w H0).length).filterMap
        (id ∘ fun a => lookup c E (c.eval (c.root (c.hash w)) a)) := by
    rw [h2, leavesOf, List.filterMap_map]
    rfl
  unfold search at h5
  unfold dianaSearch
  by_cases h0 : (searchRequest c (clientRun c Map.empty H0).2 w).addCount = 0
  · rw [if_pos h0] at h5 ⊢
    rw [searchLoop_keep] at h5
    have h7 := congrArg Prod.fst (Option.some.inj h5)
    dsimp only at h7
    rw [← h6, h2, ← h7]
  · rw [if_neg h0] at h5 ⊢
    rcases searchRequest_cases c (clientRun c Map.empty H0).2 w with h | ⟨n, hn, hn2, ha, hr⟩
    · exact absurd h h0
    · have hn' : n = (Diana.Spec.docs w H0).length := ha.symm.trans (diana_request c H0 w hlt).2
      subst hn'
      rw [hr, c.maxLeaf_constrain _ _ (by omega), evalRange_eq c _ _ 0 _ (by omega) (by omega) (by omega)]
      have : (Diana.Spec.docs w H0).length - 1 + 1 - 0 = (Diana.Spec.docs w H0).length := by omega
      rw [this, ← List.range_eq_range', Option.map_some, ← h6]
      rfl

/-- **C52 (part that holds)**: the variants of `DianaServer::search_parallel`, for all thread counts from 1 to 255 and
all schedules: the list variant gives the documents oldest first, the callback variants report them in some
order, and the vector variant puts them at their positions, with `zero` at the positions of the
documents that were not found. Missing: one moment. -/
theorem C52_diana_parallel_partial (c : Crypto Kw V) (H0 H1 : List (Kw × V)) (w : Kw)
    (hfit : ∀ v, (Diana.Spec.docs v (H0 ++ H1)).length < 2 ^ 32)
    (hnc : NoCollision c (fun v => (Diana.Spec.docs v (H0 ++ H1)).length)) (before during : List Nat)
    (threadsCount : UInt8) (ht : threadsCount ≠ 0) (zero : V) (stored : List (UpdateReq V))
    (hst : stored.map some = during.map (fun k => (clientRun c Map.empty (H0 ++ H1)).1[k]?))
    (trace : List (Nat × V × Nat))
    (h : DianaParallelRun c (dianaDeliver c (H0 ++ H1) before) (searchRequest c (clientRun c Map.empty H0).2 w)
      threadsCount stored trace) :
    ∃ P, Spec.Seen before during P ∧ listResult threadsCount trace = Spec.documents w H0 P ∧
      (callbackResult trace).Perm (Spec.documents w H0 P) ∧
      vectorResult zero (searchRequest c (clientRun c Map.empty H0).2 w).addCount [] trace =
        Spec.slots zero w H0 P := by
  have hle : (Diana.Spec.docs w H0).length ≤ (Diana.Spec.docs w (H0 ++ H1)).length := by
    simp [Diana.Spec.docs]
  have hlt := Nat.lt_of_le_of_lt hle (hfit w)
  obtain ⟨hcnt, hadd⟩ := diana_request c H0 w hlt
  have hreq : RequestNoCollision c w (searchRequest c (clientRun c Map.empty H0).2 w).addCount.toNat := by
    rw [hadd]
    intro a b ha hb hab
    exact (hnc w a w b (Nat.lt_of_lt_of_le ha hle) (Nat.lt_of_lt_of_le hb hle) hab).2
  obtain ⟨E, h1, h2⟩ := parallel_mixed c _ _ w threadsCount ht hreq stored trace h
  obtain ⟨P, h3, h4⟩ := dianaMixed_slots c H0 H1 w hfit hnc before during stored hst E h1
  have h5 := search_request c E _ w _ hcnt hlt false
  have h6 : (searchLoop c false E (leavesOf c w (Diana.Spec.docs w H0).length)).1 = Spec.documents w H0 P := by
    rw [searchLoop_keep, ← slotsOpt_docs, ← h4, List.filterMap_map, leavesOf, List.filterMap_map]
    rfl
  refine ⟨P, h3, ?_, ?_, ?_⟩
  · have h7 := C08_list c E _ w threadsCount ht false (fun h => by cases h) trace E h2
    rw [h5] at h7
    rw [← h6, Option.some.inj h7]
  · obtain ⟨⟨res, h7, h8⟩, -⟩ := C08_callback c E _ w threadsCount ht false (fun h => by cases h) trace E h2
    rw [h5] at h7
    rw [← h6, Option.some.inj h7]
    exact h8
  · obtain ⟨h7, h8⟩ := vector_slots c E _ w threadsCount ht false (fun h => by cases h) trace E zero [] h2
    rw [hadd] at h7 h8
    have h9 : Spec.slots zero w H0 P = (slotsOpt w H0 P).map (fun o => o.getD zero) := by
      rw [slotsOpt, List.map_map]
      apply List.map_congr_left
      intro e _
      by_cases he : e.2 ∈ P <;> simp [he]
    apply List.ext_getElem?
    intro i
    rw [h9, ← h4]
    by_cases hi : i < (Diana.Spec.docs w H0).length
    · rw [h8 i hi]
      simp [hi]
    · rw [List.getElem?_eq_none (by rw [h7]; simp; omega), List.getElem?_eq_none (by simp; omega)]

end Diana

/-! ## Not one moment -/

/-- Two insertions of one keyword -/
def twice : List (Bool × Index) := [(true, 5), (true, 9)]

theorem twice_moments (P : List Nat) (h : Spec.Moment [] [0, 1] P) :
    Spec.documents true twice P = [] ∨ Spec.documents true twice P = [5] ∨
      Spec.documents true twice P = [5, 9] := by
  obtain ⟨m, hm, rfl⟩ := h
  have h3 : m = 0 ∨ m = 1 ∨ m = 2 := by simp at hm; omega
  rcases h3 with rfl | rfl | rfl <;> decide

/-- **C52 is violated** by `DianaServer::search`, although the two updates arrive in the order of their insertion: the
search looks for the first document, both are stored, and it finds the second one only. -/
theorem C52_diana_sequential_violated :
    let c := Diana.Toy.crypto
    let client := Diana.clientRun c Map.empty twice
    ∃ us : List (List (Diana.UpdateReq Index)),
      us.flatten.map some = [0, 1].map (fun k => client.1[k]?) ∧ Spec.InOrder true twice [0, 1] ∧
      dianaSearch c (Diana.searchRequest c client.2 true) (dianaDeliver c twice []) us = some [9] ∧
      ¬ ∃ P, Spec.Moment [] [0, 1] P ∧ Spec.documents true twice P = [9] := by
  refine ⟨[[], (Diana.clientRun Diana.Toy.crypto Map.empty twice).1], rfl, by unfold Spec.InOrder; decide,
    by decide +kernel, ?_⟩
  rintro ⟨P, hP, h⟩
  rcases twice_moments P hP with h1 | h1 | h1 <;> rw [h1] at h <;> revert h <;> decide

/-- **C52 is violated** by the sequential searches of Sophos if the second update overtakes the first: the search
looks for the second document, both are stored, and it finds the first one only. -/
theorem C52_sophos_overtaking_violated :
    let c := Sophos.Toy.crypto
    let client := Sophos.clientRun c Map.empty twice
    ∃ us : List (List Sophos.UpdateReq),
      us.flatten.map some = [1, 0].map (fun k => client.1[k]?) ∧
      sophosSearch c (Sophos.searchRequest c (0, false) client.2 true) (Sophos.deliver c twice []) us = [5] ∧
      ¬ ∃ P, Spec.Moment [] [1, 0] P ∧ Spec.documents true twice P = [5] := by
  refine ⟨[[], (Sophos.clientRun Sophos.Toy.crypto Map.empty twice).1.reverse], rfl, by decide +kernel, ?_⟩
  rintro ⟨P, ⟨m, hm, rfl⟩, h⟩
  have h3 : m = 0 ∨ m = 1 ∨ m = 2 := by simp at hm; omega
  rcases h3 with rfl | rfl | rfl <;> revert h <;> decide

/-- **C52 is violated** by the parallel searches of Sophos, although the updates arrive in the order of their
insertion: of two threads, one looks for the first document, then both are stored, then the other finds the second. -/
theorem C52_sophos_light_violated :
    let c := Sophos.Toy.crypto
    let client := Sophos.clientRun c Map.empty twice
    ∃ stored, stored.map some = [0, 1].map (fun k => client.1[k]?) ∧ Spec.InOrder true twice [0, 1] ∧
      SearchParallelLightRun c (Sophos.deliver c twice []) 2 (Sophos.searchRequest c (0, false) client.2 true) stored
        [9] ∧
      ¬ ∃ P, Spec.Moment [] [0, 1] P ∧ [9].Perm (Spec.documents true twice P) := by
  intro c client
  refine ⟨client.1, rfl, by unfold Spec.InOrder; decide, ?_, ?_⟩
  · refine ⟨[[1], [0]], ⟨⟨[[], []], [0, 1]⟩, Sophos.deliver c twice [0, 1], client.1, [], [9]⟩, ?_, ?_,
      by simp [Threads.Done], rfl, rfl, rfl⟩
    · decide +kernel
    · refine .head (Step.look _ ⟨[[1], []], [0]⟩ 0 (ThreadsStep.step 1 0 [] rfl) rfl) ?_
      refine .trans (run_puts c _ _ _ client.1 _) ?_
      refine .head (Step.look _ ⟨[[], []], [0, 1]⟩ 1 (ThreadsStep.step 0 1 [] rfl) rfl) ?_
      refine .head (Step.report _ [] [] 9 (by decide +kernel)) ?_
      exact .refl
  · rintro ⟨P, hP, h⟩
    rcases twice_moments P hP with h1 | h1 | h1 <;> rw [h1] at h <;> revert h <;> decide

/-! ## Examples -/

/-- Three insertions of a keyword and one of another; the first is stored, the others follow one by one between
the lookups. -/
example : sophosSearch Sophos.Toy.crypto
    (Sophos.searchRequest Sophos.Toy.crypto (0, false) (Sophos.clientRun Sophos.Toy.crypto Map.empty Sophos.Toy.H).2 true)
    (Sophos.deliver Sophos.Toy.crypto Sophos.Toy.H [0])
    ([1, 2, 3].map (fun k => ((Sophos.clientRun Sophos.Toy.crypto Map.empty Sophos.Toy.H).1[k]?).toList)) = [5, 5] := by
  decide +kernel

/-- `C52_sophos_moment` on this case -/
example : ∃ P, Spec.Moment [0] [1, 2, 3] P ∧ sophosSearch Sophos.Toy.crypto
    (Sophos.searchRequest Sophos.Toy.crypto (0, false) (Sophos.clientRun Sophos.Toy.crypto Map.empty Sophos.Toy.H).2 true)
    (Sophos.deliver Sophos.Toy.crypto Sophos.Toy.H [0])
    ([1, 2, 3].map (fun k => ((Sophos.clientRun Sophos.Toy.crypto Map.empty Sophos.Toy.H).1[k]?).toList)) =
      (Spec.documents true Sophos.Toy.H P).reverse := by
  have h := C52_sophos_moment Sophos.Toy.crypto (0, false) Sophos.Toy.H [] true
    (by rw [List.append_nil]; exact Sophos.Toy.H_fits) (by rw [List.append_nil]; exact Sophos.Toy.H_noCollision)
    [0] [1, 2, 3]
    ([1, 2, 3].map (fun k => ((Sophos.clientRun Sophos.Toy.crypto Map.empty Sophos.Toy.H).1[k]?).toList))
    rfl (by unfold Spec.InOrder; decide)
  rwa [List.append_nil] at h

/-- A run of `search_parallel` while two updates are stored, and what it may give -/
example : ∃ res P, SearchParallelRun Sophos.Toy.crypto (Sophos.deliver Sophos.Toy.crypto Sophos.Toy.H [0]) 4 3
      (Sophos.searchRequest Sophos.Toy.crypto (0, false)
        (Sophos.clientRun Sophos.Toy.crypto Map.empty Sophos.Toy.H).2 true)
      ([3, 2].filterMap (fun k => (Sophos.clientRun Sophos.Toy.crypto Map.empty Sophos.Toy.H).1[k]?)) res ∧
    Spec.Seen [0] [3, 2] P ∧ res.Perm (Spec.documents true Sophos.Toy.H P) := by
  obtain ⟨res, h⟩ := C52_runs_exist Sophos.Toy.crypto (Sophos.deliver Sophos.Toy.crypto Sophos.Toy.H [0]) 4 (by decide) 3
    (Sophos.searchRequest Sophos.Toy.crypto (0, false)
      (Sophos.clientRun Sophos.Toy.crypto Map.empty Sophos.Toy.H).2 true)
    ([3, 2].filterMap (fun k => (Sophos.clientRun Sophos.Toy.crypto Map.empty Sophos.Toy.H).1[k]?))
  obtain ⟨P, h1, h2⟩ := C52_sophos_parallel_partial Sophos.Toy.crypto (0, false) Sophos.Toy.H [] true
    (by rw [List.append_nil]; exact Sophos.Toy.H_fits) (by rw [List.append_nil]; exact Sophos.Toy.H_noCollision)
    [0] [3, 2] 4 (by decide) 3 (by decide) _ rfl res (by simpa using h)
  exact ⟨res, P, h, h1, h2⟩

/-- Diana: the first document is stored, the second arrives after its lookup, the third before. -/
example : dianaSearch Diana.Toy.crypto
    (Diana.searchRequest Diana.Toy.crypto (Diana.clientRun Diana.Toy.crypto Map.empty Sophos.Toy.H).2 true)
    (dianaDeliver Diana.Toy.crypto Sophos.Toy.H [0])
    [[], [], [2, 3].filterMap (fun k => (Diana.clientRun Diana.Toy.crypto Map.empty Sophos.Toy.H).1[k]?)] =
      some [5, 9] := by
  decide +kernel

/-- A run of `search_parallel` of Diana with two threads: the first update is stored, the first thread finds it,
the second thread finds nothing. -/
example :
    let c := Diana.Toy.crypto
    let client := Diana.clientRun c Map.empty twice
    ∃ stored, stored.map some = [0].map (fun k => client.1[k]?) ∧
      DianaParallelRun c (dianaDeliver c twice []) (Diana.searchRequest c client.2 true) 2 stored [(0, 5, 0)] := by
  intro c client
  refine ⟨[Diana.requestFor c true 5 0], rfl, [[(0, Diana.Toy.wide (Diana.Toy.bytes 1 0))],
      [(1, Diana.Toy.wide (Diana.Toy.bytes 1 1))]], _,
    by decide +kernel, .tail (.tail (.tail .refl (LiveScan.put _ (Diana.requestFor c true 5 0)))
      (LiveScan.scan _ _ (Diana.ScanStep.hit 0 0 (Diana.Toy.wide (Diana.Toy.bytes 1 0)) [] 6 rfl (by decide +kernel) rfl)))
      (LiveScan.scan _ _ (Diana.ScanStep.miss 1 1 (Diana.Toy.wide (Diana.Toy.bytes 1 1)) [] rfl (by decide +kernel))), ?_, rfl,
    by decide +kernel⟩
  intro w hw
  simp [Diana.ScanSys.init] at hw
  subst hw
  exact ⟨rfl, rfl⟩

end Verif.Live
