import Verif.Janus.CrashRefine
import Verif.Janus.Props

/-!
# C54: interrupted searches of Janus

"If the request of a search is lost, if client or server stop during a search, or if a request is
processed twice, later searches still return the documents inserted and not removed."
-/

namespace Verif.Janus.Crash

open Verif

variable {PK KS CT Rand : Type}

theorem kw_mem (evs : List (Ev Rand)) : ∀ e ∈ evs, Spec.Ev.kw e ∈ evs.map Spec.Ev.kw :=
  fun _ he => List.mem_map_of_mem he

theorem docs_mem (evs : List (Ev Rand)) :
    ∀ e ∈ evs, ∀ i ∈ Spec.Ev.docs e, i ∈ evs.flatMap Spec.Ev.docs :=
  fun e he _ hi => List.mem_flatMap.2 ⟨e, he, hi⟩

theorem toy_noCollisionFor (evs : List (Ev Unit)) (h1 : ∀ w ∈ evs.map Spec.Ev.kw, w.length = 1)
    (h2 : evs.length ≤ 256) : NoCollisionFor Toy.crypto evs :=
  Toy.noCollision _ h1 _ _ h2

/-- **C54**, what happens exactly: for every lawful cryptography and every admissible history with lost
updates and interrupted searches, a completed search returns the documents of the keyword, where a
search interrupted after the first write of the client has taken the keyword back to its last completed
search. -/
theorem C54_rollback (c : Crypto PK KS CT Rand) (laws : PunctLaws c) (evs : List (Ev Rand))
    (hn : evs.length + 1 < 2 ^ 32) (hnc : NoCollisionFor c evs)
    (hadm : Spec.admissible (fun _ => ⟨[], [], 0⟩) evs = true) :
    ∃ s', evRun c Sys.init evs = .ok (s', Spec.run Spec.empty evs) := by
  refine evRun_spec c laws _ _ evs.length hn hnc.ins hnc.del hnc.kw hnc.tags evs (kw_mem evs)
    (docs_mem evs) Sys.init (fun _ => CEp.init) Spec.empty (fun _ => ⟨[], [], 0⟩)
    (cinv_init c _ _) ?_ ?_ hadm
  · intro w _
    simp [CEp.init]
  · intro w _
    constructor <;> simp [CEp.init, Spec.empty]

/-- **C54**, the part that holds: as long as no search is interrupted once the client has written its
new epoch, later searches return the documents inserted and not removed; updates may be lost, the client
may stop before its first write, and requests may be processed twice. -/
theorem C54_partial (c : Crypto PK KS CT Rand) (laws : PunctLaws c) (evs : List (Ev Rand))
    (hn : evs.length + 1 < 2 ^ 32) (hnc : NoCollisionFor c evs)
    (hadm : Spec.admissible (fun _ => ⟨[], [], 0⟩) evs = true)
    (hu : Spec.uninterrupted evs = true) :
    ∃ s', evRun c Sys.init evs = .ok (s', Spec.wanted Spec.empty evs) := by
  rw [← run_wanted evs Spec.empty Spec.empty (fun _ => rfl) hu]
  exact C54_rollback c laws evs hn hnc hadm

/-- **C54**: whatever is lost or interrupted, and whatever the punctures, the server does not fail: no
exception, no out-of-bounds read of the cache, no infinite loop. -/
theorem C54_no_fault (c : Crypto PK KS CT Rand) (evs : List (Ev Rand))
    (hn : evs.length + 1 < 2 ^ 32) (hnc : NoCollisionFor c evs) :
    ∃ s' outs, evRun c Sys.init evs = .ok (s', outs) := by
  refine evRun_ok c _ evs.length hn hnc.ins hnc.del hnc.kw evs (kw_mem evs) Sys.init
    (fun _ => CEp.init) (cinv_init c _ _) ?_
  intro w _
  simp [CEp.init]

/-- Insertion of a list of documents, all delivered. -/
def insertAll (w : Str) (l : List (Index × Rand)) : List (Ev Rand) :=
  l.map (fun d => .insert w d.1 d.2 true)

theorem run_insertAll (S : Spec.Store) (w : Str) (l : List (Index × Rand)) (evs : List (Ev Rand)) :
    Spec.run S (insertAll w l ++ evs) =
      Spec.run (S.set w ⟨(S w).now ++ l.map (·.1), (S w).base⟩) evs := by
  induction l generalizing S with
  | nil =>
    have : S.set w ⟨(S w).now ++ ([] : List (Index × Rand)).map (·.1), (S w).base⟩ = S := by
      funext v
      simp only [Spec.Store.set, List.map_nil, List.append_nil]
      split
      · next e => rw [e]
      · rfl
    rw [this]
    rfl
  | cons d l ih =>
    have h := ih (S.set w ⟨(S w).now ++ [d.1], (S w).base⟩)
    simp only [insertAll, List.map_cons, List.cons_append, Spec.run, if_true]
    rw [insertAll] at h
    rw [h]
    congr 1
    funext v
    simp only [Spec.Store.set]
    split <;> simp

theorem wanted_insertAll (S : Spec.Store) (w : Str) (l : List (Index × Rand)) (evs : List (Ev Rand))
    (hb : (S w).base = []) :
    Spec.wanted S (insertAll w l ++ evs) =
      Spec.wanted (S.set w ⟨(S w).now ++ l.map (·.1), []⟩) evs := by
  induction l generalizing S with
  | nil =>
    have : S.set w ⟨(S w).now ++ ([] : List (Index × Rand)).map (·.1), []⟩ = S := by
      funext v
      simp only [Spec.Store.set, List.map_nil, List.append_nil]
      split
      · next e => rw [e, ← hb]
      · rfl
    rw [this]
    rfl
  | cons d l ih =>
    have h := ih (S.set w ⟨(S w).now ++ [d.1], []⟩) (by simp [Spec.Store.set])
    simp only [insertAll, List.map_cons, List.cons_append, Spec.wanted, if_true]
    rw [insertAll] at h
    rw [h]
    congr 1
    funext v
    simp only [Spec.Store.set]
    split <;> simp

theorem admissible_insertAll (P : Str → Spec.Pending) (w : Str) (l : List (Index × Rand))
    (evs : List (Ev Rand)) (hr : (P w).removed = []) :
    Spec.admissible P (insertAll w l ++ evs) = Spec.admissible (fun v => if v = w then
      ⟨(P w).inserted ++ l.map (·.1), (P w).removed, (P w).lostRemovals⟩ else P v) evs := by
  induction l generalizing P with
  | nil =>
    have : (fun v => if v = w then (⟨(P w).inserted ++ ([] : List (Index × Rand)).map (·.1),
        (P w).removed, (P w).lostRemovals⟩ : Spec.Pending) else P v) = P := by
      funext v
      simp only [List.map_nil, List.append_nil]
      split
      · next e => rw [e]
      · rfl
    rw [this]
    rfl
  | cons d l ih =>
    simp only [insertAll, List.map_cons, List.cons_append, Spec.admissible, if_true, hr]
    have h := ih (fun v => if v = w then
      ⟨(P w).inserted ++ [d.1], [], (P w).lostRemovals⟩ else P v) (by simp)
    rw [insertAll] at h
    rw [h]
    simp only [List.contains_nil, Bool.not_false, Bool.or_true, Bool.true_and, if_true]
    congr 1
    funext v
    split <;> simp

/-- **C54**, violated for every lawful cryptography, all documents and every interruption: documents
`old` were inserted and found by a search, documents `new` were inserted, and a search is interrupted
(request lost, or client stopped after its first write, or server stopped).  The next search returns
`old` only: the documents `new` are lost. -/
theorem C54_documents_lost_violated (c : Crypto PK KS CT Rand) (laws : PunctLaws c) (w : Str)
    (old new : List (Index × Rand)) (f : Fate) (hf : Spec.Fate.answers f = false)
    (hf' : Spec.Fate.nothing f = false)
    (hn : old.length + new.length + 4 < 2 ^ 32)
    (hnc : NoCollisionFor c (insertAll w old ++ .search w .completed :: (insertAll w new ++
      [.search w f, .search w .completed]))) :
    (∃ s', evRun c Sys.init (insertAll w old ++ .search w .completed :: (insertAll w new ++
      [.search w f, .search w .completed])) = .ok (s', [old.map (·.1), old.map (·.1)])) ∧
    Spec.wanted Spec.empty (insertAll w old ++ .search w .completed :: (insertAll w new ++
      [.search w f, .search w .completed])) =
      [old.map (·.1), old.map (·.1) ++ new.map (·.1)] := by
  constructor
  · obtain ⟨s', hs'⟩ := C54_rollback c laws _ (by simp [insertAll]; omega) hnc (by
      rw [admissible_insertAll _ _ _ _ rfl]
      simp only [Spec.admissible]
      rw [admissible_insertAll _ _ _ _ (by simp [Spec.Fate.nothing])]
      simp [Spec.admissible, hf, hf', Spec.Pending.ok])
    refine ⟨s', ?_⟩
    rw [hs', run_insertAll]
    simp only [Spec.run]
    rw [run_insertAll]
    cases f with
    | completed => simp [Spec.Fate.answers] at hf
    | repeated => simp [Spec.Fate.answers] at hf
    | clientStopped k =>
      cases k with
      | zero => simp [Spec.Fate.nothing] at hf'
      | succ k => simp [Spec.run, Spec.Store.set, Spec.empty]
    | requestLost => simp [Spec.run, Spec.Store.set, Spec.empty]
    | serverStopped k => simp [Spec.run, Spec.Store.set, Spec.empty]
  · rw [wanted_insertAll _ _ _ _ rfl]
    simp only [Spec.wanted]
    rw [wanted_insertAll _ _ _ _ (by simp [Spec.Store.set])]
    cases f with
    | completed => simp [Spec.Fate.answers] at hf
    | repeated => simp [Spec.Fate.answers] at hf
    | clientStopped k => simp [Spec.wanted, Spec.Store.set, Spec.empty]
    | requestLost => simp [Spec.wanted, Spec.Store.set, Spec.empty]
    | serverStopped k => simp [Spec.wanted, Spec.Store.set, Spec.empty]

/-- **C54**, violated for every lawful cryptography and every interruption: a removed document comes
back. -/
theorem C54_removed_document_returns_violated (c : Crypto PK KS CT Rand) (laws : PunctLaws c)
    (w : Str) (i : Index) (r : Rand) (f : Fate) (hf : Spec.Fate.answers f = false)
    (hf' : Spec.Fate.nothing f = false)
    (hnc : NoCollisionFor c [.insert w i r true, .search w .completed, .remove w i true,
      .search w f, .search w .completed]) :
    (∃ s', evRun c Sys.init [.insert w i r true, .search w .completed, .remove w i true,
      .search w f, .search w .completed] = .ok (s', [[i], [i]])) ∧
    Spec.wanted Spec.empty [Ev.insert w i r true, .search w .completed, .remove w i true,
      .search w f, .search w .completed] = [[i], []] := by
  constructor
  · obtain ⟨s', hs'⟩ := C54_rollback c laws _ (by simp) hnc (by
      have hcn : Spec.Fate.nothing .completed = false := rfl
      simp [Spec.admissible, hf, hf', Spec.Pending.ok, hcn])
    refine ⟨s', ?_⟩
    rw [hs']
    cases f with
    | completed => simp [Spec.Fate.answers] at hf
    | repeated => simp [Spec.Fate.answers] at hf
    | clientStopped k =>
      cases k with
      | zero => simp [Spec.Fate.nothing] at hf'
      | succ k => simp [Spec.run, Spec.Store.set, Spec.empty]
    | requestLost => simp [Spec.run, Spec.Store.set, Spec.empty]
    | serverStopped k => simp [Spec.run, Spec.Store.set, Spec.empty]
  · cases f with
    | completed => simp [Spec.Fate.answers] at hf
    | repeated => simp [Spec.Fate.answers] at hf
    | clientStopped k => simp [Spec.wanted, Spec.Store.set, Spec.empty]
    | requestLost => simp [Spec.wanted, Spec.Store.set, Spec.empty]
    | serverStopped k => simp [Spec.wanted, Spec.Store.set, Spec.empty]

/-- **C54**, violated: a removal that does not reach the server makes the next search lose the documents
inserted since the last one, because the key of the search counts a puncture that the server does not
have. -/
theorem C54_lost_removal_violated :
    PunctLaws Toy.crypto ∧
    NoCollisionFor Toy.crypto [.insert [97] 1 () true, .remove [97] 2 false, .search [97] .completed] ∧
    ((evRun Toy.crypto Sys.init [.insert [97] 1 () true, .remove [97] 2 false,
      .search [97] .completed]).toOption.map (·.2)) = some [[]] ∧
    Spec.wanted Spec.empty [Ev.insert [97] 1 () true, .remove [97] 2 false,
      .search [97] .completed] = [[1]] := by
  refine ⟨Toy.laws, toy_noCollisionFor _ (by simp [Spec.Ev.kw]) (by simp), by decide +kernel, ?_⟩
  simp [Spec.wanted, Spec.Store.set, Spec.empty]

/-- **C54**, violated for every lawful cryptography, all thread counts and all schedules when the server
uses `search_parallel`, which does not delete the entries of the insertions: a request processed twice
returns the documents twice, and they stay twice in the cache. -/
theorem C54_parallel_repeated_violated (c : Crypto PK KS CT Rand) (laws : PunctLaws c) (w : Str)
    (i : Index) (r : Rand) (threads threads' : UInt8) (ht : threads ≠ 0) (ht' : threads' ≠ 0)
    (hnc : NoCollisionFor c [.insert w i r true, .search w .completed]) :
    ∃ s, evRun c Sys.init [.insert w i r true] = .ok (s, []) ∧
      (∃ reported listed srv, SearchParallelRun c s.server (searchRequest c s.client w).1 threads
        reported listed srv) ∧
      ∀ reported listed srv, SearchParallelRun c s.server (searchRequest c s.client w).1 threads
          reported listed srv →
        reported = [i] ∧
        (∃ reported' listed' srv', SearchParallelRun c srv (searchRequest c s.client w).1 threads'
          reported' listed' srv') ∧
        ∀ reported' listed' srv', SearchParallelRun c srv (searchRequest c s.client w).1 threads'
            reported' listed' srv' →
          reported' = [i, i] ∧
          ∃ l, readCache srv'.cache (c.kwToken w) = .ok l ∧ l.map (·.1) = [i, i] := by
  have hw : w ∈ [Ev.insert w i r true, .search w .completed].map Spec.Ev.kw := by simp [Spec.Ev.kw]
  obtain ⟨s, E, hs, hI, hEw⟩ : ∃ s E, evRun c Sys.init [.insert w i r true] = .ok (s, []) ∧
      CInv c ([Ev.insert w i r true, .search w .completed].map Spec.Ev.kw) 2 s E ∧
      E w = ⟨0, [some (i, r)], [], []⟩ :=
    ⟨_, _, rfl, cinv_insert c (by simp) hnc.ins (cinv_init c _ 2) (fun _ _ => by simp [CEp.init]) hw
      (by simp [CEp.init]) i r true, by rw [setC_self]; rfl⟩
  refine ⟨s, hs, ?_⟩
  have hmk := (cinv_meta c hI hw (by simp [hEw])).2
  rw [hEw] at hmk
  have hadd := cinv_counts c (by decide : 2 < 2 ^ 32) hI hw (by simp [hEw])
    (by simp [hEw])
  have hcI := hI.ins.counter w hw
  have hcD := hI.del.counter w hw
  simp only [hEw, ctSlots_length, shareSlots_length, List.length_cons, List.length_nil] at hcI hcD
  have aI := addCount_slots c.ins _ _ _ hcI (by decide)
  have aD := addCount_slots c.del _ _ _ hcD (by decide)
  have e1 : (searchRequest c s.client w).1.ins =
      Diana.searchRequest c.ins s.client.insCtr (metaNat w 0) := by
    simp only [searchRequest, hmk]
  have e2 : (searchRequest c s.client w).1.del =
      Diana.searchRequest c.del s.client.delCtr (metaNat w 0) := by
    simp only [searchRequest, hmk]
  have e3 : (searchRequest c s.client w).1.kwToken = c.kwToken w := rfl
  have e4 : (searchRequest c s.client w).1.firstKeyShare =
      c.initialKeyshare (c.derive (metaNat w 0)) 0 := by
    simp only [searchRequest, hmk, aD]; rfl
  have hni : Diana.RequestNoCollision c.ins (metaKeyword w (searchCounter s.client w))
      (searchRequest c s.client w).1.ins.addCount.toNat := by
    rw [hmk, e1, aI]
    intro a b ha hb _
    simp at ha hb
    omega
  have hnd : Diana.RequestNoCollision c.del (metaKeyword w (searchCounter s.client w))
      (searchRequest c s.client w).1.del.addCount.toNat := by
    rw [hmk, e2, aD]
    intro a b ha hb _
    simp at ha
  have hcache := hI.cache w hw
  simp only [hEw] at hcache
  have hdec : decryptAll c [c.initialKeyshare (c.derive (metaNat w 0)) 0]
      [c.encrypt (c.derive (metaNat w 0)) r i (docTag c w i)] = [(i, docTag c w i)] := by
    have h1 := laws.decrypts (c.derive (metaNat w 0)) [] r i (docTag c w i) (by decide) (by simp)
    have h2 : properShares c (c.derive (metaNat w 0)) [] =
      [c.initialKeyshare (c.derive (metaNat w 0)) 0] := rfl
    rw [h2] at h1
    simp [decryptAll, h1, c.ctTag_encrypt]
  have hiS : ∀ edb, Diana.search c.del edb (Diana.searchRequest c.del s.client.delCtr (metaNat w 0))
      true = some ([], edb) := by
    intro edb
    rw [Diana.search_request c.del edb _ _ 0 hcD (by decide)]
    rfl
  obtain ⟨iedb, i1, -, -⟩ := live_search c.ins (by decide : 2 < 2 ^ 32) hnc.ins hI.ins hw
    (by simp [hEw]) (by simp [hEw])
  simp only [hEw] at i1
  have i1' : Diana.search c.ins s.server.insEdb (Diana.searchRequest c.ins s.client.insCtr (metaNat w 0))
      true = some ([c.encrypt (c.derive (metaNat w 0)) r i (docTag c w i)], iedb) := i1
  -- the sequential search on a server with the same insertions and the cache `l`
  have hseq : ∀ (srv : Server KS CT) (l : List (Index × Tag)), srv.insEdb = s.server.insEdb →
      readCache srv.cache (c.kwToken w) = .ok l →
      search c srv (searchRequest c s.client w).1 = .ok (l.map (·.1) ++ [i],
        ⟨iedb, srv.delEdb, writeCache srv.cache (c.kwToken w) (l ++ [(i, docTag c w i)])⟩) := by
    intro srv l h1 h2
    unfold search
    rw [e1, e2, e3, e4, h1, i1', hiS]
    simp [ofOption, bind, Except.bind, h2, pure, Except.pure, hdec, filterCache]
  refine ⟨C15_terminates c s.client s.server w threads ht hni _ hcache, ?_⟩
  intro reported listed srv hrun
  obtain ⟨res, srv1, p1, p2, -, -, p5, ⟨l, l', p6, p7, p8⟩, -⟩ :=
    C15_parallel_eq_sequential c s.client s.server w threads ht hni hnd _ _ _ hrun
  rw [hseq _ _ rfl hcache] at p1
  obtain ⟨q1, q2⟩ := Prod.mk.inj (Except.ok.inj p1)
  have hl : l = [(i, docTag c w i)] := by
    rw [← q2] at p7
    rw [readCache_writeCache] at p7
    rw [← Except.ok.inj p7] at p8
    exact List.perm_singleton.1 p8
  subst hl
  refine ⟨by rw [p2, ← q1]; rfl, C15_terminates c s.client srv w threads' ht' hni _ p6, ?_⟩
  intro reported' listed' srv' hrun'
  obtain ⟨res', srv1', p1', p2', -, -, -, ⟨m, m', p6', p7', p8'⟩, -⟩ :=
    C15_parallel_eq_sequential c s.client srv w threads' ht' hni hnd _ _ _ hrun'
  rw [hseq _ _ p5 p6] at p1'
  obtain ⟨q1', q2'⟩ := Prod.mk.inj (Except.ok.inj p1')
  refine ⟨by rw [p2', ← q1']; rfl, m, p6', ?_⟩
  rw [← q2', readCache_writeCache] at p7'
  rw [← Except.ok.inj p7'] at p8'
  have h9 : m = List.replicate 2 (i, docTag c w i) := List.perm_replicate.1 p8'
  rw [h9]
  rfl

/-- Non-vacuity of `C54_rollback`: lost updates, a search processed twice, interrupted searches of all
kinds, removals, two keywords. -/
example : ∃ s', evRun Toy.crypto Sys.init
    [.insert [97] 1 () true, .insert [97] 2 () false, .insert [98] 9 () true, .search [97] .repeated,
      .insert [97] 3 () true, .search [97] (.clientStopped 0), .search [97] .completed,
      .remove [97] 1 true, .search [97] (.serverStopped 1), .search [97] .completed,
      .insert [97] 4 () true, .search [97] (.clientStopped 1), .insert [97] 5 () true,
      .search [97] .completed, .search [98] .requestLost, .search [98] .completed] =
    .ok (s', [[1], [1], [1, 3], [1, 3], [1, 3, 5], []]) := by
  have := C54_rollback Toy.crypto Toy.laws
    [.insert [97] 1 () true, .insert [97] 2 () false, .insert [98] 9 () true, .search [97] .repeated,
      .insert [97] 3 () true, .search [97] (.clientStopped 0), .search [97] .completed,
      .remove [97] 1 true, .search [97] (.serverStopped 1), .search [97] .completed,
      .insert [97] 4 () true, .search [97] (.clientStopped 1), .insert [97] 5 () true,
      .search [97] .completed, .search [98] .requestLost, .search [98] .completed] (by simp)
    (toy_noCollisionFor _ (by simp [Spec.Ev.kw]) (by simp)) (by decide)
  simpa [Spec.run, Spec.Store.set, Spec.empty] using this

/-- Non-vacuity of `C54_partial`. -/
example : ∃ s', evRun Toy.crypto Sys.init
    [.insert [97] 1 () true, .insert [97] 2 () false, .search [97] .repeated, .remove [97] 1 true,
      .insert [97] 3 () true, .search [97] (.clientStopped 0), .search [97] .repeated] =
    .ok (s', [[1], [1], [3], [3]]) := by
  have := C54_partial Toy.crypto Toy.laws
    [.insert [97] 1 () true, .insert [97] 2 () false, .search [97] .repeated, .remove [97] 1 true,
      .insert [97] 3 () true, .search [97] (.clientStopped 0), .search [97] .repeated] (by simp)
    (toy_noCollisionFor _ (by simp [Spec.Ev.kw]) (by simp)) (by decide) (by decide)
  simpa [Spec.wanted, Spec.Store.set, Spec.empty] using this

example : ∃ s', evRun Toy.crypto Sys.init
    [.insert [97] 1 () true, .search [97] .completed, .insert [97] 2 () true, .insert [97] 3 () true,
      .search [97] .requestLost, .search [97] .completed] = .ok (s', [[1], [1]]) :=
  (C54_documents_lost_violated Toy.crypto Toy.laws [97] [(1, ())] [(2, ()), (3, ())] .requestLost rfl
    rfl (by simp) (toy_noCollisionFor _ (by simp [Spec.Ev.kw, insertAll]) (by simp [insertAll]))).1

example : ∃ s', evRun Toy.crypto Sys.init [.insert [97] 7 () true, .search [97] .completed,
    .remove [97] 7 true, .search [97] (.serverStopped 1), .search [97] .completed] =
    .ok (s', [[7], [7]]) :=
  (C54_removed_document_returns_violated Toy.crypto Toy.laws [97] 7 () (.serverStopped 1) rfl rfl
    (toy_noCollisionFor _ (by simp [Spec.Ev.kw]) (by simp))).1

example : ∃ s, evRun Toy.crypto Sys.init [.insert [97] 7 () true] = .ok (s, []) ∧
    ∃ reported listed srv reported' listed' srv',
      SearchParallelRun Toy.crypto s.server (searchRequest Toy.crypto s.client [97]).1 3
        reported listed srv ∧
      SearchParallelRun Toy.crypto srv (searchRequest Toy.crypto s.client [97]).1 2
        reported' listed' srv' ∧ reported' = [7, 7] := by
  obtain ⟨s, h1, ⟨rep, lis, srv, h2⟩, h3⟩ := C54_parallel_repeated_violated Toy.crypto Toy.laws [97] 7
    () 3 2 (by decide) (by decide) (toy_noCollisionFor _ (by simp [Spec.Ev.kw]) (by simp))
  obtain ⟨-, ⟨rep', lis', srv', h4⟩, h5⟩ := h3 _ _ _ h2
  exact ⟨s, h1, rep, lis, srv, rep', lis', srv', h2, h4, (h5 _ _ _ h4).1⟩

example : ∃ s' outs, evRun Toy.crypto Sys.init [.insert [97] 1 () true, .remove [97] 2 false,
    .remove [97] 3 true, .search [97] (.serverStopped 0), .search [97] .repeated] = .ok (s', outs) :=
  C54_no_fault Toy.crypto _ (by simp) (toy_noCollisionFor _ (by simp [Spec.Ev.kw]) (by simp))

end Verif.Janus.Crash
