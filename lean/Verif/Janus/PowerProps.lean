import Verif.Janus.PowerHonest
import Verif.Janus.CrashProps
import Verif.Janus.Toy

/-!
# C75: Janus and loss of power

Full statement: after any sequence of insertions, removals, searches and losses of power of the client's or
the server's machine, (a) a search returns exactly the documents inserted and not removed whose update the
server still has, (b) a document that was returned by a search and not removed is returned by every later
search, and (c) no search request sent before an insertion reveals the update of that insertion.

It does not hold.  `C75_refines` says exactly what the searches return; `C75_undelivered` and `C75_partial`
are (a) for losses at the server of updates made since the last search or flush; `C75_kept_partial` is (b)
for all losses except of the cache; the `_violated` theorems say what the other losses do.
-/

namespace Verif.Janus.Power

open Verif

variable {PK KS CT Rand : Type}

/-! ## What happens, exactly -/

/-- **C75**: the results of the searches, whatever is lost. -/
theorem C75_refines (c : Crypto PK KS CT Rand) (laws : PunctLaws c) (ops : List (Op Rand))
    (hnc : NoCollisionFor c ops) (hfit : ops.length < 2 ^ 32)
    (hkeys : (Spec.Machine.init : Spec.Machine Rand).keysOk ops = true) :
    ∃ s, run c Sys.init ops = .ok (s, Spec.Machine.init.run ops) :=
  run_refines c laws hfit hnc ops 0 (inv_init c _ _ _) (by omega)
    (fun _ ho _ hw => List.mem_flatMap.mpr ⟨_, ho, hw⟩)
    (fun _ ho _ hi => List.mem_flatMap.mpr ⟨_, ho, hi⟩) hkeys

/-- **C75**: whatever is lost, no search fails. -/
theorem C75_no_fault (c : Crypto PK KS CT Rand) (ops : List (Op Rand)) :
    ∃ s outs, run c Sys.init ops = .ok (s, outs) :=
  run_ok c ops _ readable_init

/-- **C75** (a), one half: whatever is lost, a search for `w` returns only documents inserted for `w`. -/
theorem C75_sound (c : Crypto PK KS CT Rand) (laws : PunctLaws c) (ops : List (Op Rand)) (w : Str)
    (hnc : NoCollisionFor c (ops ++ [.search w true])) (hfit : ops.length + 1 < 2 ^ 32)
    (hkeys : (Spec.Machine.init : Spec.Machine Rand).keysOk (ops ++ [.search w true]) = true) :
    ∃ s outs res, run c Sys.init (ops ++ [.search w true]) = .ok (s, outs ++ [res]) ∧
      ∀ i ∈ res, i ∈ Spec.inserted ops w := by
  obtain ⟨s, hs⟩ := C75_refines c laws _ hnc (by simpa using hfit) hkeys
  rw [run_append] at hs
  refine ⟨s, _, (after Spec.Machine.init ops).found w, hs, ?_⟩
  exact found_within (within_after (within_init (fun w i => i ∈ Spec.inserted ops w)
    (fun w i => i ∈ Spec.removed ops w)) ops (fun _ _ _ _ h => mem_inserted h) (fun _ _ _ h => mem_removed h)) w

/-- **C75** (b) if the cache loses nothing after the search, whatever else is lost: a document returned by a
search is returned by every later search unless it was removed at some time. -/
theorem C75_kept_partial (c : Crypto PK KS CT Rand) (laws : PunctLaws c) (a b : List (Op Rand)) (w : Str)
    (hb : Spec.NoCacheLoss b)
    (hnc : NoCollisionFor c (a ++ .search w true :: b ++ [.search w true]))
    (hfit : a.length + b.length + 2 < 2 ^ 32)
    (hkeys : (Spec.Machine.init : Spec.Machine Rand).keysOk (a ++ .search w true :: b ++ [.search w true]) =
      true) :
    ∃ s outs outs' res res',
      run c Sys.init (a ++ .search w true :: b ++ [.search w true]) =
        .ok (s, outs ++ res :: outs' ++ [res']) ∧
      ∀ i ∈ res, i ∉ Spec.removed (a ++ b) w → i ∈ res' := by
  obtain ⟨s, hs⟩ := C75_refines c laws _ hnc (by simp; omega) hkeys
  rw [run_append, run_append] at hs
  refine ⟨s, Spec.Machine.init.run a, (after Spec.Machine.init (a ++ [.search w true])).run b, (after Spec.Machine.init a).found w,
    (after Spec.Machine.init (a ++ .search w true :: b)).found w, ?_, ?_⟩
  · rw [hs]
    congr 2
    simp [Spec.Machine.run, Spec.Machine.step, after]
  · intro i hi hr
    have hw := within_after (M := (Spec.Machine.init : Spec.Machine Rand))
      (within_init (fun w i => i ∈ Spec.inserted (a ++ b) w) (fun w i => i ∈ Spec.removed (a ++ b) w))
      (a ++ [.search w true])
      (fun v j r d h => mem_inserted (r := r) (d := d) (by
        rcases List.mem_append.mp h with h | h
        · exact List.mem_append.mpr (Or.inl h)
        · simp at h))
      (fun v j d h => mem_removed (d := d) (by
        rcases List.mem_append.mp h with h | h
        · exact List.mem_append.mpr (Or.inl h)
        · simp at h))
    have hi' : i ∈ (after Spec.Machine.init (a ++ [.search w true])).cache.cur w := by
      rw [after_append]
      show i ∈ Spec.set _ w _ w
      simpa [Spec.set] using hi
    have hI : ∀ v j r d, Op.insert v j r d ∈ b → j ∈ Spec.inserted (a ++ b) v :=
      fun v j r d h => mem_inserted (by simp only [List.mem_append]; exact Or.inr h)
    have hR : ∀ v j d, Op.remove v j d ∈ b → j ∈ Spec.removed (a ++ b) v :=
      fun v j d h => mem_removed (by simp only [List.mem_append]; exact Or.inr h)
    have hk := cache_kept hw w i hi' hr b hb hI hR
    have hw' := within_after hw b hI hR
    rw [← after_append, List.append_assoc, List.singleton_append] at hk hw'
    simp only [Spec.Machine.found, List.mem_filter, List.mem_append, Bool.not_eq_true',
      List.contains_eq_mem, decide_eq_false_iff_not]
    refine ⟨Or.inl hk, fun hm => ?_⟩
    obtain ⟨x, hx, rfl⟩ := List.mem_map.mp hm
    exact hr (fetch_in hw'.del.cur w _ _ x hx)

/-! ## Losses at the server of updates -/

/-- **C75**: when the server loses updates made since the last search or flush, everything is as if these
updates had not been delivered: the same results, the same databases. -/
theorem C75_undelivered (c : Crypto PK KS CT Rand) (ops : List (Op Rand)) (evs : List (Crash.Ev Rand))
    (h : Spec.asUndelivered [] [] ops = some evs) :
    ∃ s outs, run c Sys.init ops = .ok (s, outs) ∧
      Crash.evRun c Janus.Sys.init evs.reverse = .ok (⟨s.client, s.server⟩, outs) := by
  obtain ⟨s, outs, hs⟩ := C75_no_fault c ops
  exact ⟨s, outs, hs, same_run ops (same_init c) h hs⟩

/-- **C75** (a) for losses at the server of updates made since the last search or flush: the searches return
exactly the documents inserted and not removed, where the lost updates do not count. -/
theorem C75_partial (c : Crypto PK KS CT Rand) (laws : PunctLaws c) (ops : List (Op Rand))
    (evs : List (Crash.Ev Rand)) (h : Spec.asUndelivered [] [] ops = some evs)
    (hn : evs.length + 1 < 2 ^ 32) (hnc : Crash.NoCollisionFor c evs.reverse)
    (hadm : Crash.Spec.admissible (fun _ => ⟨[], [], 0⟩) evs.reverse = true)
    (hu : Crash.Spec.uninterrupted evs.reverse = true) :
    ∃ s, run c Sys.init ops = .ok (s, Crash.Spec.wanted Crash.Spec.empty evs.reverse) := by
  obtain ⟨s, outs, h1, h2⟩ := C75_undelivered c ops evs h
  obtain ⟨s', h3⟩ := Crash.C54_partial c laws evs.reverse (by simpa using hn) hnc hadm hu
  rw [h2] at h3
  exact ⟨s, (Prod.mk.inj (Except.ok.inj h3)).2 ▸ h1⟩

/-! ## What the other losses do -/

/-- Evaluation of the machine on a given history. -/
local macro "power_eval" : tactic => `(tactic| simp [Spec.Machine.run, Spec.Machine.step,
    Spec.Machine.keysOk, Spec.Machine.keyOk, Spec.Machine.init, Spec.Machine.key, Spec.Machine.clientSearch,
    Spec.Machine.insertions, Spec.Machine.punctures, Spec.Machine.found, Spec.fetch, Spec.empties, Spec.set,
    Spec.setSlot, Verif.Power.Db.cur, Verif.Power.Db.write, Verif.Power.Db.lose, flush, writes,
    List.range_succ])

/-- The server loses the last write to the cache. -/
def cacheHistory (w : Str) (i : Index) (r : Rand) : List (Op Rand) :=
  [.insert w i r true, .search w true, .serverLoss 0 0 1, .search w true]

/-- **C75 violated** (a, b): all the documents of the keyword are lost, though no update was lost: the search
has deleted them. -/
theorem C75_cache_violated (c : Crypto PK KS CT Rand) (laws : PunctLaws c) (w : Str) (i : Index) (r : Rand)
    (hnc : NoCollisionFor c (cacheHistory w i r)) :
    ∃ s, run c Sys.init (cacheHistory w i r) = .ok (s, [[i], []]) := by
  obtain ⟨s, hs⟩ := C75_refines c laws _ hnc (by simp [cacheHistory])
    (by unfold cacheHistory; power_eval)
  refine ⟨s, hs.trans ?_⟩
  unfold cacheHistory; power_eval

/-- The same after `flush_edb`. -/
def flushHistory (w : Str) (i : Index) (r : Rand) : List (Op Rand) :=
  [.insert w i r true, .search w true, .flush, .serverLoss 0 0 1, .search w true]

/-- **C75 violated** (a, b): `flush_edb` does not help, since it does not flush the cache; it makes sure that
the entries are deleted. -/
theorem C75_flush_violated (c : Crypto PK KS CT Rand) (laws : PunctLaws c) (w : Str) (i : Index) (r : Rand)
    (hnc : NoCollisionFor c (flushHistory w i r)) :
    ∃ s, run c Sys.init (flushHistory w i r) = .ok (s, [[i], []]) := by
  obtain ⟨s, hs⟩ := C75_refines c laws _ hnc (by simp [flushHistory])
    (by unfold flushHistory; power_eval)
  refine ⟨s, hs.trans ?_⟩
  unfold flushHistory; power_eval

/-- The client loses the count of an insertion. -/
def countHistory (w : Str) (i j : Index) (r q : Rand) : List (Op Rand) :=
  [.insert w i r true, .clientLoss 0 1 0, .search w true, .insert w j q true, .search w true]

/-- **C75 violated** (a): the document is not found though the server has it, and the next insertion
overwrites it. -/
theorem C75_count_violated (c : Crypto PK KS CT Rand) (laws : PunctLaws c) (w : Str) (i j : Index) (r q : Rand)
    (hnc : NoCollisionFor c (countHistory w i j r q)) :
    ∃ s, run c Sys.init (countHistory w i j r q) = .ok (s, [[], [j]]) := by
  obtain ⟨s, hs⟩ := C75_refines c laws _ hnc (by simp [countHistory])
    (by unfold countHistory; power_eval)
  refine ⟨s, hs.trans ?_⟩
  unfold countHistory; power_eval

/-- The client loses the last write of a search counter. -/
def epochHistory (w : Str) (i j k : Index) (r q p : Rand) : List (Op Rand) :=
  [.insert w i r true, .search w true, .insert w j q true, .clientLoss 1 0 0, .search w true,
    .insert w k p true, .search w true, .search w true]

/-- **C75 violated** (a): document `j` is not found though client and server have kept everything about its
insertion; it comes back after other insertions and searches. -/
theorem C75_epoch_violated (c : Crypto PK KS CT Rand) (laws : PunctLaws c) (w : Str) (i j k : Index)
    (r q p : Rand) (hnc : NoCollisionFor c (epochHistory w i j k r q p)) :
    ∃ s, run c Sys.init (epochHistory w i j k r q p) = .ok (s, [[i], [i], [i, k], [i, k, j]]) := by
  obtain ⟨s, hs⟩ := C75_refines c laws _ hnc (by simp [epochHistory])
    (by unfold epochHistory; power_eval)
  refine ⟨s, hs.trans ?_⟩
  unfold epochHistory; power_eval

/-- Client and server lose what a search has written, except for the cache. -/
def twiceHistory (w : Str) (i : Index) (r : Rand) : List (Op Rand) :=
  [.insert w i r true, .search w true, .clientLoss 1 1 0, .serverLoss 1 0 0, .search w true]

/-- **C75 violated** (a): the document is returned twice. -/
theorem C75_twice_violated (c : Crypto PK KS CT Rand) (laws : PunctLaws c) (w : Str) (i : Index) (r : Rand)
    (hnc : NoCollisionFor c (twiceHistory w i r)) :
    ∃ s, run c Sys.init (twiceHistory w i r) = .ok (s, [[i], [i, i]]) := by
  obtain ⟨s, hs⟩ := C75_refines c laws _ hnc (by simp [twiceHistory])
    (by unfold twiceHistory; power_eval)
  refine ⟨s, hs.trans ?_⟩
  unfold twiceHistory; power_eval

/-- The client loses the last write of a removal counter and the server loses nothing: the removal has no
effect. -/
def removalHistory (w : Str) (i : Index) (r : Rand) : List (Op Rand) :=
  [.insert w i r true, .search w true, .remove w i true, .clientLoss 0 0 1, .search w true]

/-- **C75 violated** (a): a removed document is returned though the server has the removal. -/
theorem C75_removal_violated (c : Crypto PK KS CT Rand) (laws : PunctLaws c) (w : Str) (i : Index) (r : Rand)
    (hnc : NoCollisionFor c (removalHistory w i r)) :
    ∃ s, run c Sys.init (removalHistory w i r) = .ok (s, [[i], [i]]) := by
  obtain ⟨s, hs⟩ := C75_refines c laws _ hnc (by simp [removalHistory])
    (by unfold removalHistory; power_eval)
  refine ⟨s, hs.trans ?_⟩
  unfold removalHistory; power_eval

/-- The server loses the removal of another document. -/
def shareHistory : List (Op Unit) :=
  [.insert [97] 5 () true, .remove [97] 6 true, .serverLoss 0 1 0, .search [97] true, .search [97] true]

/-- **C75 violated** (a): document 5 is lost for ever since the key for its decryption is incomplete. -/
theorem C75_share_violated :
    ∃ s, run Toy.crypto Sys.init shareHistory = .ok (s, [[], []]) := by
  obtain ⟨s, outs, h⟩ := C75_no_fault Toy.crypto shareHistory
  have h2 : (run Toy.crypto Sys.init shareHistory).toOption.map (·.2) = some [[], []] := by decide +kernel
  refine ⟨s, ?_⟩
  rw [h] at h2 ⊢
  exact congrArg Except.ok (Prod.ext rfl (Option.some.inj h2))

/-- **C75 violated** (c): after a search and a loss of the search counter, the next insertion for the keyword
has the update token of the first one, which the server has seen in the search, for every instance of the
cryptography. -/
theorem C75_forward_violated (c : Crypto PK KS CT Rand) (w : Str) (i j : Index) (r q : Rand) :
    ∃ s outs, run c Sys.init [.insert w i r true, .search w true, .clientLoss 1 0 0] = .ok (s, outs) ∧
      (insertionRequest c s.client w j q).1.token =
        (insertionRequest c (Sys.init : Sys KS CT).client w i r).1.token := by
  obtain ⟨s, outs, h⟩ := C75_no_fault c [.insert w i r true, .search w true, .clientLoss 1 0 0]
  refine ⟨s, outs, h, ?_⟩
  simp only [run] at h
  have h1 : step c (Sys.init : Sys KS CT) (.insert w i r true) = .ok
      ({ (Sys.init : Sys KS CT) with
        insCtr := Verif.Power.Db.write ⟨[], Map.empty⟩ (Map.empty.put (metaKeyword w 0) 0)
        insEdb := Verif.Power.Db.write ⟨[], Map.empty⟩ ((insert (Sys.init : Sys KS CT).server
          (insertionRequest c (Sys.init : Sys KS CT).client w i r).1).insEdb) }, []) := rfl
  rw [h1] at h
  simp only at h
  generalize hs1 : ({ (Sys.init : Sys KS CT) with
        insCtr := Verif.Power.Db.write ⟨[], Map.empty⟩ (Map.empty.put (metaKeyword w 0) 0)
        insEdb := Verif.Power.Db.write ⟨[], Map.empty⟩ ((insert (Sys.init : Sys KS CT).server
          (insertionRequest c (Sys.init : Sys KS CT).client w i r).1).insEdb) } : Sys KS CT) = s1 at h
  have hsc : s1.searchCtr = ⟨[], Map.empty⟩ := by rw [← hs1]; rfl
  have hins : s1.insCtr = Verif.Power.Db.write ⟨[], Map.empty⟩ (Map.empty.put (metaKeyword w 0) 0) := by
    rw [← hs1]
  have hctr : searchCounter s1.client w = 0 := by
    simp [searchCounter, Sys.client, hsc, Counter.get, Verif.Power.Db.cur]
  have hadd : (searchRequest c s1.client w).1.ins.addCount = 1 := by
    have hget : Counter.get s1.client.insCtr (metaKeyword w 0) = some 0 := by
      simp [Sys.client, hins, Counter.get, Verif.Power.Db.cur, Verif.Power.Db.write]
    simp only [searchRequest, hctr, Diana.searchRequest, hget]
    rfl
  have hcs : (clientSearch c s1 w).searchCtr.lose 1 = ⟨[], Map.empty⟩ ∧
      (clientSearch c s1 w).insCtr.cur (metaKeyword w 0) = none := by
    constructor
    · simp only [clientSearch, hadd]
      simp [hsc, Verif.Power.Db.lose, Verif.Power.Db.write]
    · simp only [clientSearch, hadd]
      have : (searchRequest c s1.client w).2.insCtr = Diana.removeKeyword s1.client.insCtr (metaKeyword w 0) := by
        have h' := hadd
        simp only [searchRequest, hctr] at h' ⊢
        rw [h']; rfl
      simp [this, Verif.Power.Db.cur, Verif.Power.Db.write, Diana.removeKeyword, Counter.removeKey]
  simp only [step, if_true] at h
  cases hse : search c s1.server (searchRequest c s1.client w).1 with
  | error e => rw [hse] at h; exact absurd h (by simp)
  | ok x =>
    rw [hse] at h
    have hfin := (Prod.mk.inj (Except.ok.inj h)).1
    have e1 : s.client.searchCtr = Map.empty := by
      rw [← hfin]
      show ((clientSearch c s1 w).searchCtr.lose 1).cur = _
      rw [hcs.1]; rfl
    have e2 : s.client.insCtr (metaKeyword w 0) = none := by
      rw [← hfin]
      show (((clientSearch c s1 w).insCtr.lose 0).cur) (metaKeyword w 0) = none
      rw [lose_zero]
      exact hcs.2
    have e3 : searchCounter s.client w = 0 := by simp [searchCounter, Counter.get, e1]
    simp only [insertionRequest, e3, Diana.insertionRequest, Counter.getAndIncrement, Counter.get, e2]
    rfl

/-! ## Examples -/

/-- The hypotheses of `C75_refines`, `C75_sound` and `C75_kept_partial` are met by a history with losses at
both sides. -/
def sampleLosses : List (Op Unit) :=
  [.insert [97] 5 () true, .insert [97] 7 () true, .search [97] true, .insert [97] 8 () true, .remove [97] 7 true,
    .clientLoss 1 1 0, .serverLoss 1 0 0, .insert [97] 9 () true, .insert [98] 9 () false, .search [97] true,
    .flush, .serverLoss 1 1 0, .clientLoss 0 0 1]

theorem sample_noCollision (ops : List (Op Unit)) (h : ∀ w ∈ ops.flatMap Spec.Op.kws, w.length = 1)
    (hl : ops.length ≤ 256) : NoCollisionFor Toy.crypto ops :=
  Toy.noCollision _ h _ _ hl

example : NoCollisionFor Toy.crypto (sampleLosses ++ [.search [97] true]) ∧
    (Spec.Machine.init : Spec.Machine Unit).keysOk (sampleLosses ++ [.search [97] true]) = true ∧
    (Spec.Machine.init : Spec.Machine Unit).run (sampleLosses ++ [.search [97] true]) =
      [[5, 7], [5, 7, 9], [5, 7, 9]] := by
  refine ⟨sample_noCollision _ (by decide) (by decide), by decide +kernel, by decide +kernel⟩

example : (run Toy.crypto Sys.init (sampleLosses ++ [.search [97] true])).toOption.map (·.2) =
    some [[5, 7], [5, 7, 9], [5, 7, 9]] := by decide +kernel

example : Spec.NoCacheLoss (sampleLosses.drop 3) := by
  intro a b d h
  simp [sampleLosses] at h

/-- The hypotheses of `C75_partial` are met by a history with several losses. -/
def sampleServer : List (Op Unit) :=
  [.insert [97] 5 () true, .insert [97] 7 () true, .serverLoss 1 0 0, .insert [97] 8 () true, .search [97] true,
    .insert [97] 9 () true, .flush, .insert [97] 6 () true, .insert [98] 5 () true, .serverLoss 2 0 0,
    .remove [97] 5 true, .search [97] true, .remove [97] 9 true, .serverLoss 0 1 0, .search [97] true]

def sampleEvs : List (Crash.Ev Unit) :=
  [.search [97] .completed, .remove [97] 9 false, .search [97] .completed, .remove [97] 5 true,
    .insert [98] 5 () false, .insert [97] 6 () false, .insert [97] 9 () true, .search [97] .completed,
    .insert [97] 8 () true, .insert [97] 7 () false, .insert [97] 5 () true]

example : Spec.asUndelivered [] [] sampleServer = some sampleEvs ∧
    Crash.Spec.admissible (fun _ => ⟨[], [], 0⟩) sampleEvs.reverse = true ∧
    Crash.Spec.uninterrupted sampleEvs.reverse = true ∧
    Crash.NoCollisionFor Toy.crypto sampleEvs.reverse ∧
    Crash.Spec.wanted Crash.Spec.empty sampleEvs.reverse = [[5, 8], [8, 9], [8, 9]] := by
  refine ⟨rfl, by decide +kernel, by decide +kernel, ?_, by decide +kernel⟩
  refine Toy.noCollision _ ?_ _ _ (by decide)
  decide

example : (run Toy.crypto Sys.init sampleServer).toOption.map (·.2) = some [[5, 8], [8, 9], [8, 9]] := by
  decide +kernel

/-- The witnesses meet the hypothesis on collisions. -/
example :
    NoCollisionFor Toy.crypto (cacheHistory [97] 5 ()) ∧ NoCollisionFor Toy.crypto (flushHistory [97] 5 ()) ∧
    NoCollisionFor Toy.crypto (countHistory [97] 5 6 () ()) ∧
    NoCollisionFor Toy.crypto (epochHistory [97] 5 6 7 () () ()) ∧
    NoCollisionFor Toy.crypto (twiceHistory [97] 5 ()) ∧ NoCollisionFor Toy.crypto (removalHistory [97] 5 ()) := by
  refine ⟨?_, ?_, ?_, ?_, ?_, ?_⟩ <;> exact sample_noCollision _ (by decide) (by decide)

example : (run Toy.crypto Sys.init (epochHistory [97] 5 6 7 () () ())).toOption.map (·.2) =
    some [[5], [5], [5, 7], [5, 7, 6]] := by decide +kernel

end Verif.Janus.Power
