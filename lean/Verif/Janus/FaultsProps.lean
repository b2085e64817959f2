import Verif.Janus.FaultsHonest
import Verif.Janus.Toy

/-!
# C64: Janus when RocksDB calls fail

Full statement: for every history of operations and every pattern of failures of the RocksDB calls
made by the client and the server of Janus, the observations are `Spec.Honest`: an update that returns
normally counts in the later searches, one that throws does not, and a search that returns normally
returns exactly the documents inserted and not removed since.

It does not hold.  `C64_refines` says exactly what is observed under every pattern in which the
punctured keys are complete; `C64_partial` says which failures are harmless; the `_violated` theorems
say what each of the other failures does.  `C64_no_fault`: whatever fails, the process goes on.
-/

namespace Verif.Janus.Faults

open Verif

variable {PK KS CT Rand : Type}

/-! ## What is observed, exactly -/

/-- **C64**: the observations under every pattern of failures. -/
theorem C64_refines (c : Crypto PK KS CT Rand) (laws : PunctLaws c) (ops : List (Op Rand))
    (hnc : NoCollisionFor c ops) (hfit : ops.length < 2 ^ 32)
    (hkeys : (Spec.Machine.init : Spec.Machine Rand).keysOk ops = true) :
    ∃ s, run c Sys.init ops = .ok (s, Spec.Machine.init.run ops) :=
  run_refines c laws hfit hnc ops 0 (inv_init c _ _ _) (by omega)
    (fun _ ho => List.mem_map.mpr ⟨_, ho, rfl⟩)
    (fun _ ho _ hi => List.mem_flatMap.mpr ⟨_, ho, hi⟩) hkeys

/-- **C64**: whatever fails, no operation makes the process fail: the cache is always readable and the
searches of the two Diana instances never throw. -/
theorem C64_no_fault (c : Crypto PK KS CT Rand) (ops : List (Op Rand)) :
    ∃ s outs, run c Sys.init ops = .ok (s, outs) :=
  run_ok c ops _ (fun _ => ⟨[], rfl⟩)

/-! ## Failures that do no harm -/

/-- **C64** for tolerable failures (`Spec.tolerable`), for histories that Janus handles correctly when
nothing fails. -/
theorem C64_partial (c : Crypto PK KS CT Rand) (laws : PunctLaws c) (ops : List (Op Rand))
    (hnc : NoCollisionFor c ops) (hfit : ops.length < 2 ^ 32)
    (htol : ∀ op ∈ ops, Spec.tolerable op)
    (hadm : Janus.Spec.admissible (fun _ => ⟨[], []⟩) (ops.flatMap Spec.counted) = true) :
    ∃ s outs, run c Sys.init ops = .ok (s, outs) ∧ Spec.Honest Janus.Spec.empty ops outs := by
  obtain ⟨h1, h2⟩ := honest_run ops Spec.Machine.init Janus.Spec.empty (fun _ => ⟨[], []⟩)
    (fun w => ⟨[], [], rel_init w⟩) htol hadm
  obtain ⟨s, hs⟩ := C64_refines c laws ops hnc hfit h1
  exact ⟨s, _, hs, h2⟩

/-! ## Failures that do harm -/

/-- Nothing fails. -/
def InsertF.good : InsertF := ⟨true, true, .ok, true⟩

def RemoveF.good : RemoveF := ⟨true, true, true, .ok, true⟩

def SearchF.good : SearchF :=
  ⟨true, true, true, true, true, true, fun _ => false, fun _ => false, fun _ => false, fun _ => false,
    true, true⟩

/-- The history is observed as `outs`, and that is not right. -/
def Breaks (c : Crypto PK KS CT Rand) (ops : List (Op Rand)) (outs : List Out) : Prop :=
  (∃ s, run c Sys.init ops = .ok (s, outs)) ∧ ¬ Spec.Honest Janus.Spec.empty ops outs

theorem breaks_of (c : Crypto PK KS CT Rand) (laws : PunctLaws c) (ops : List (Op Rand))
    (outs : List Out) (hnc : NoCollisionFor c ops) (hfit : ops.length < 2 ^ 32)
    (hkeys : (Spec.Machine.init : Spec.Machine Rand).keysOk ops = true)
    (houts : Spec.Machine.init.run ops = outs)
    (hh : ¬ Spec.Honest Janus.Spec.empty ops outs) : Breaks c ops outs :=
  ⟨houts ▸ C64_refines c laws ops hnc hfit hkeys, hh⟩

/-- Evaluation of the machine on a given history. -/
macro "janus_eval" : tactic => `(tactic| simp [Spec.Machine.run, Spec.Machine.step,
    Spec.Machine.keysOk, Spec.Machine.keyOk, Spec.Machine.init, Spec.Machine.epochOf,
    Spec.Machine.counts, Spec.Machine.fetched, Spec.Machine.found, Spec.fetch, Spec.clear,
    Verif.Faults.Spec.Slots.step, Verif.Faults.Spec.Slots.setN, Verif.Faults.Spec.Slots.fill,
    Verif.Faults.Spec.Slots.init, Spec.punctureNumber, Spec.outOf, InsertF.good, RemoveF.good,
    SearchF.good, Spec.Honest, Janus.Spec.Store.set, Janus.Spec.empty, List.range_succ, *])

/-- The results of a search cannot be stored in the cache: the search returns them, and as it has
deleted them from the database, they are lost. -/
def cachePutHistory (w : Str) (i : Index) (r : Rand) : List (Op Rand) :=
  [.insert w i r .good, .search w { SearchF.good with cachePut := false }, .search w .good]

/-- **C64 violated**, by `cachePutHistory`. -/
theorem C64_cachePut_violated (c : Crypto PK KS CT Rand) (laws : PunctLaws c) (w : Str) (i : Index)
    (r : Rand) (hnc : NoCollisionFor c (cachePutHistory w i r)) :
    Breaks c (cachePutHistory w i r)
      [.acked, .results [i], .results []] := by
  refine breaks_of c laws _ _ hnc (by simp [cachePutHistory]) ?_ ?_ ?_ <;> unfold cachePutHistory <;>
    janus_eval

/-- The cache cannot be read once: its documents are lost for ever, since the search overwrites it. -/
def cacheGetHistory (w : Str) (i : Index) (r : Rand) : List (Op Rand) :=
  [.insert w i r .good, .search w .good, .search w { SearchF.good with cacheGet := false },
    .search w .good]

/-- **C64 violated**, by `cacheGetHistory`. -/
theorem C64_cacheGet_violated (c : Crypto PK KS CT Rand) (laws : PunctLaws c) (w : Str) (i : Index)
    (r : Rand) (hnc : NoCollisionFor c (cacheGetHistory w i r)) :
    Breaks c (cacheGetHistory w i r)
      [.acked, .results [i], .results [], .results []] := by
  refine breaks_of c laws _ _ hnc (by simp [cacheGetHistory]) ?_ ?_ ?_ <;> unfold cacheGetHistory <;>
    janus_eval

/-- The client cannot read the search counter for an insertion after a search: the insertion returns
normally and the document is stored in a past epoch, where no search looks for it. -/
def insertScGetHistory (w : Str) (i j : Index) (r q : Rand) : List (Op Rand) :=
  [.insert w i r .good, .search w .good, .insert w j q { InsertF.good with scGet := false },
    .search w .good]

/-- **C64 violated**, by `insertScGetHistory`. -/
theorem C64_insertScGet_violated (c : Crypto PK KS CT Rand) (laws : PunctLaws c) (w : Str) (i j : Index)
    (r q : Rand) (hnc : NoCollisionFor c (insertScGetHistory w i j r q)) :
    Breaks c (insertScGetHistory w i j r q)
      [.acked, .results [i], .acked, .results [i]] := by
  refine breaks_of c laws _ _ hnc (by simp [insertScGetHistory]) ?_ ?_ ?_ <;> unfold insertScGetHistory <;>
    janus_eval

/-- The same for a removal: it has no effect. -/
def removeScGetHistory (w : Str) (i : Index) (r : Rand) : List (Op Rand) :=
  [.insert w i r .good, .search w .good, .remove w i { RemoveF.good with scGet := false },
    .search w .good]

/-- **C64 violated**, by `removeScGetHistory`. -/
theorem C64_removeScGet_violated (c : Crypto PK KS CT Rand) (laws : PunctLaws c) (w : Str) (i : Index)
    (r : Rand) (hnc : NoCollisionFor c (removeScGetHistory w i r)) :
    Breaks c (removeScGetHistory w i r)
      [.acked, .results [i], .acked, .results [i]] := by
  refine breaks_of c laws _ _ hnc (by simp [removeScGetHistory]) ?_ ?_ ?_ <;> unfold removeScGetHistory <;>
    janus_eval

/-- The client cannot read the counter of insertions: the new document overwrites the oldest one of
the epoch. -/
def insertGetHistory (w : Str) (i j : Index) (r q : Rand) : List (Op Rand) :=
  [.insert w i r .good, .insert w j q { InsertF.good with getOk := false }, .search w .good]

/-- **C64 violated**, by `insertGetHistory`. -/
theorem C64_insertGet_violated (c : Crypto PK KS CT Rand) (laws : PunctLaws c) (w : Str) (i j : Index)
    (r q : Rand) (hnc : NoCollisionFor c (insertGetHistory w i j r q)) :
    Breaks c (insertGetHistory w i j r q)
      [.acked, .acked, .results [j]] := by
  refine breaks_of c laws _ _ hnc (by simp [insertGetHistory]) ?_ ?_ ?_ <;> unfold insertGetHistory <;>
    janus_eval

/-- The server cannot store an insertion: it is acknowledged and lost. -/
def insertSrvPutHistory (w : Str) (i : Index) (r : Rand) : List (Op Rand) :=
  [.insert w i r { InsertF.good with srvPut := false }, .search w .good]

/-- **C64 violated**, by `insertSrvPutHistory`. -/
theorem C64_insertSrvPut_violated (c : Crypto PK KS CT Rand) (laws : PunctLaws c) (w : Str) (i : Index)
    (r : Rand) (hnc : NoCollisionFor c (insertSrvPutHistory w i r)) :
    Breaks c (insertSrvPutHistory w i r)
      [.acked, .results []] := by
  refine breaks_of c laws _ _ hnc (by simp [insertSrvPutHistory]) ?_ ?_ ?_ <;> unfold insertSrvPutHistory <;>
    janus_eval

/-- The client cannot read the counter of insertions for a search, after a removal: the documents of
the epoch are never found, since the search counter is incremented. -/
def insGetHistory (w : Str) (i j : Index) (r : Rand) : List (Op Rand) :=
  [.insert w i r .good, .remove w j .good, .search w { SearchF.good with insGet := false },
    .search w .good]

/-- **C64 violated**, by `insGetHistory`. -/
theorem C64_insGet_violated (c : Crypto PK KS CT Rand) (laws : PunctLaws c) (w : Str) (i j : Index)
    (r : Rand) (hij : i ≠ j) (hnc : NoCollisionFor c (insGetHistory w i j r)) :
    Breaks c (insGetHistory w i j r)
      [.acked, .acked, .results [], .results []] := by
  refine breaks_of c laws _ _ hnc (by simp [insGetHistory]) ?_ ?_ ?_ <;> unfold insGetHistory <;>
    janus_eval

/-- The client cannot read the counter of removals for a search, after an insertion: the removed
document is returned by this search and all later ones. -/
def delGetHistory (w : Str) (i j : Index) (r q : Rand) : List (Op Rand) :=
  [.insert w i r .good, .search w .good, .insert w j q .good, .remove w i .good,
    .search w { SearchF.good with delGet := false }, .search w .good]

/-- **C64 violated**, by `delGetHistory`. -/
theorem C64_delGet_violated (c : Crypto PK KS CT Rand) (laws : PunctLaws c) (w : Str) (i j : Index)
    (r q : Rand) (hij : j ≠ i) (hnc : NoCollisionFor c (delGetHistory w i j r q)) :
    Breaks c (delGetHistory w i j r q)
      [.acked, .results [i], .acked, .acked, .results [i, j], .results [i, j]] := by
  refine breaks_of c laws _ _ hnc (by simp [delGetHistory]) ?_ ?_ ?_ <;> unfold delGetHistory <;>
    janus_eval

/-- The client cannot read the search counter for a search: it searches the first epoch, and sets the
counter back if it finds something there; here the documents of the current epoch are missing once. -/
def searchScGetHistory (w : Str) (i j : Index) (r q : Rand) : List (Op Rand) :=
  [.insert w i r .good, .search w .good, .insert w j q .good,
    .search w { SearchF.good with scGet := false }]

/-- **C64 violated**, by `searchScGetHistory`. -/
theorem C64_searchScGet_violated (c : Crypto PK KS CT Rand) (laws : PunctLaws c) (w : Str) (i j : Index)
    (r q : Rand) (hnc : NoCollisionFor c (searchScGetHistory w i j r q)) :
    Breaks c (searchScGetHistory w i j r q)
      [.acked, .results [i], .acked, .results [i]] := by
  refine breaks_of c laws _ _ hnc (by simp [searchScGetHistory]) ?_ ?_ ?_ <;> unfold searchScGetHistory <;>
    janus_eval

/-- The server cannot read an insertion in a search: the document is never found, since the search
counter is incremented. -/
def badInsHistory (w : Str) (i : Index) (r : Rand) : List (Op Rand) :=
  [.insert w i r .good, .search w { SearchF.good with badIns := fun _ => true }, .search w .good]

/-- **C64 violated**, by `badInsHistory`. -/
theorem C64_badIns_violated (c : Crypto PK KS CT Rand) (laws : PunctLaws c) (w : Str) (i : Index)
    (r : Rand) (hnc : NoCollisionFor c (badInsHistory w i r)) :
    Breaks c (badInsHistory w i r)
      [.acked, .results [], .results []] := by
  refine breaks_of c laws _ _ hnc (by simp [badInsHistory]) ?_ ?_ ?_ <;> unfold badInsHistory <;>
    janus_eval

/-- The server cannot read the key share of a removal of a cached document: the document is returned by
this search and all later ones. -/
def badDelHistory (w : Str) (i : Index) (r : Rand) : List (Op Rand) :=
  [.insert w i r .good, .search w .good, .remove w i .good,
    .search w { SearchF.good with badDel := fun _ => true }, .search w .good]

/-- **C64 violated**, by `badDelHistory`. -/
theorem C64_badDel_violated (c : Crypto PK KS CT Rand) (laws : PunctLaws c) (w : Str) (i : Index)
    (r : Rand) (hnc : NoCollisionFor c (badDelHistory w i r)) :
    Breaks c (badDelHistory w i r)
      [.acked, .results [i], .acked, .results [i], .results [i]] := by
  refine breaks_of c laws _ _ hnc (by simp [badDelHistory]) ?_ ?_ ?_ <;> unfold badDelHistory <;>
    janus_eval

/-- Neither is the search counter written nor the counter of insertions deleted nor the entries deleted
at the server: every later search finds the documents once more. -/
def duplicatesHistory (w : Str) (i : Index) (r : Rand) : List (Op Rand) :=
  [.insert w i r .good,
    .search w { SearchF.good with scPut := false, insDel := false, keepIns := fun _ => true },
    .search w .good]

/-- **C64 violated**, by `duplicatesHistory`. -/
theorem C64_duplicates_violated (c : Crypto PK KS CT Rand) (laws : PunctLaws c) (w : Str) (i : Index)
    (r : Rand) (hnc : NoCollisionFor c (duplicatesHistory w i r)) :
    Breaks c (duplicatesHistory w i r)
      [.acked, .results [i], .results [i, i]] := by
  refine breaks_of c laws _ _ hnc (by simp [duplicatesHistory]) ?_ ?_ ?_ <;> unfold duplicatesHistory <;>
    janus_eval

/-- A removal that fails after the counter was written: it throws, and the documents inserted since the
last search cannot be decrypted any more. -/
def halfRemovalHistory : List (Op Unit) :=
  [.insert [97] 5 () .good, .remove [97] 6 { RemoveF.good with putRes := .storedButFailed },
    .search [97] .good, .search [97] .good]

/-- **C64 violated**: the document 5 is lost though only the removal of document 6 failed, and that
with an exception. -/
theorem C64_halfRemoval_violated :
    Breaks Toy.crypto halfRemovalHistory [.acked, .error, .results [], .results []] := by
  refine ⟨?_, ?_⟩
  · obtain ⟨s, outs, h⟩ := C64_no_fault Toy.crypto halfRemovalHistory
    refine ⟨s, ?_⟩
    have h2 : (run Toy.crypto Sys.init halfRemovalHistory).toOption.map (·.2) =
        some [.acked, .error, .results [], .results []] := by decide +kernel
    rw [h] at h2 ⊢
    exact congrArg Except.ok (Prod.ext rfl (Option.some.inj h2))
  · simp [halfRemovalHistory, Spec.Honest, Janus.Spec.Store.set, Janus.Spec.empty, InsertF.good,
      RemoveF.good, SearchF.good]

/-- **C64**, forward privacy violated: if the search counter cannot be written in a search, the next
insertion for the keyword uses the update token that the server has already seen in this search, for
every instance of the cryptography. -/
theorem C64_forward_violated (c : Crypto PK KS CT Rand) (w : Str) (i j : Index) (r q : Rand) :
    ∃ s outs first second,
      run c Sys.init [.insert w i r .good, .search w { SearchF.good with scPut := false }] =
        .ok (s, outs) ∧
      (insertionRequest c (Sys.init : Sys KS CT).client w i r .good).1 = some first ∧
      (insertionRequest c s.client w j q .good).1 = some second ∧
      second.token = first.token := by
  obtain ⟨s, outs, h⟩ := C64_no_fault c
    [.insert w i r .good, .search w { SearchF.good with scPut := false }]
  refine ⟨s, outs, Diana.requestFor c.ins (metaKeyword w 0) (c.encrypt (c.derive (metaKeyword w 0)) r i
    (docTag c w i)) 0, Diana.requestFor c.ins (metaKeyword w 0)
    (c.encrypt (c.derive (metaKeyword w 0)) q j (docTag c w j)) 0, h, rfl, ?_, rfl⟩
  have hcl : s.client = (searchRequest c (insertionRequest c (Sys.init : Sys KS CT).client w i r
      .good).2 w { SearchF.good with scPut := false }).2 := by
    simp only [run] at h
    obtain ⟨s1, out1, h1, -⟩ := step_ok c (Sys.init : Sys KS CT) (fun _ => ⟨[], rfl⟩)
      (.insert w i r .good)
    rw [h1] at h
    have hs1 : s1.client = (insertionRequest c (Sys.init : Sys KS CT).client w i r .good).2 := by
      have := (Prod.mk.inj (Except.ok.inj h1)).1
      rw [← this]
      rfl
    simp only [step] at h
    rw [← hs1]
    revert h
    cases search c s1.server (searchRequest c s1.client w { SearchF.good with scPut := false }).1
        { SearchF.good with scPut := false } with
    | error e => intro h; simp at h
    | ok x =>
      intro h
      obtain ⟨x1, x2⟩ := x
      simp only [Except.ok.injEq, Prod.mk.injEq] at h
      rw [← h.1]
  rw [hcl]
  have h0 : (insertionRequest c (Sys.init : Sys KS CT).client w i r .good).2.searchCtr = Map.empty :=
    rfl
  have h1 : (insertionRequest c (Sys.init : Sys KS CT).client w i r .good).2.insCtr =
      Map.empty.put (metaKeyword w 0) 0 := rfl
  generalize (insertionRequest c (Sys.init : Sys KS CT).client w i r .good).2 = cl at h0 h1
  have hsc : searchCounter true cl w = 0 := by
    simp [searchCounter, Janus.searchCounter, Counter.get, h0]
  have ha : (Diana.searchRequest c.ins (Verif.Faults.seen true cl.insCtr) (metaKeyword w 0)).addCount =
      1 := by
    simp [Diana.searchRequest, Verif.Faults.seen, Verif.Faults.get, Counter.get, h1]
  have hins : ((searchRequest c cl w { SearchF.good with scPut := false }).2).insCtr
      (metaKeyword w 0) = none := by
    simp [searchRequest, SearchF.good, hsc, ha, Diana.removeKeyword, Counter.removeKey]
  have hsc' : searchCounter true (searchRequest c cl w { SearchF.good with scPut := false }).2 w = 0 := by
    simp [searchRequest, SearchF.good, searchCounter, Janus.searchCounter, Counter.get, h0]
  generalize (searchRequest c cl w { SearchF.good with scPut := false }).2 = cl' at hins hsc'
  simp [insertionRequest, InsertF.good, hsc', Verif.Faults.getAndIncrement, Verif.Faults.get, hins]
  exact ⟨rfl, rfl⟩

/-! ## Examples -/

/-- The hypotheses of `C64_partial` are met by a history with failures of every tolerable kind. -/
def sampleHistory : List (Op Unit) :=
  [.insert [97] 5 () .good,
    .insert [97] 7 () { InsertF.good with putRes := .storedButFailed },
    .insert [97] 8 () { InsertF.good with putRes := .failed },
    .insert [97] 9 () .good,
    .remove [97] 9 { RemoveF.good with putRes := .failed },
    .remove [97] 5 { RemoveF.good with numGet := false },
    .search [97] { SearchF.good with insDel := false, keepIns := fun _ => true, delDel := false },
    .insert [97] 11 () .good,
    .search [97] { SearchF.good with scPut := false },
    .insert [98] 5 () .good,
    .insert [97] 12 () .good,
    .remove [97] 11 .good,
    .search [97] .good]

theorem sample_noCollision (ops : List (Op Unit)) (h : ∀ op ∈ ops, (Spec.Op.kw op).length = 1)
    (hl : ops.length ≤ 256) : NoCollisionFor Toy.crypto ops := by
  apply Toy.noCollision
  · intro w hw
    obtain ⟨op, ho, rfl⟩ := List.mem_map.mp hw
    exact h op ho
  · exact hl

example : NoCollisionFor Toy.crypto sampleHistory ∧ sampleHistory.length < 2 ^ 32 ∧
    (∀ op ∈ sampleHistory, Spec.tolerable op) ∧
    Janus.Spec.admissible (fun _ => ⟨[], []⟩) (sampleHistory.flatMap Spec.counted) = true ∧
    (Spec.Machine.init : Spec.Machine Unit).keysOk sampleHistory = true := by
  refine ⟨sample_noCollision _ (by decide) (by decide), by decide, ?_, by decide +kernel,
    by decide +kernel⟩
  simp [sampleHistory, Spec.tolerable, InsertF.good, RemoveF.good, SearchF.good]

example : (run Toy.crypto Sys.init sampleHistory).toOption.map (·.2) =
    some [.acked, .error, .error, .acked, .error, .acked, .results [9], .acked, .results [9, 11],
      .acked, .acked, .acked, .results [9, 12]] := by decide +kernel

/-- The witnesses, run. -/
example :
    (run Toy.crypto Sys.init (cachePutHistory [97] 5 ())).toOption.map (·.2) =
      some [.acked, .results [5], .results []] ∧
    (run Toy.crypto Sys.init (delGetHistory [97] 5 6 () ())).toOption.map (·.2) =
      some [.acked, .results [5], .acked, .acked, .results [5, 6], .results [5, 6]] ∧
    (run Toy.crypto Sys.init (duplicatesHistory [97] 5 ())).toOption.map (·.2) =
      some [.acked, .results [5], .results [5, 5]] := by decide +kernel

/-- A witness meets its hypotheses. -/
example : Breaks Toy.crypto (delGetHistory [97] 5 6 () ())
    [.acked, .results [5], .acked, .acked, .results [5, 6], .results [5, 6]] :=
  C64_delGet_violated Toy.crypto Toy.laws [97] 5 6 () () (by decide)
    (sample_noCollision _ (by decide) (by decide))

/-- All the witnesses meet the hypothesis on collisions. -/
example :
    NoCollisionFor Toy.crypto (cachePutHistory [97] 5 ()) ∧
    NoCollisionFor Toy.crypto (cacheGetHistory [97] 5 ()) ∧
    NoCollisionFor Toy.crypto (insertScGetHistory [97] 5 6 () ()) ∧
    NoCollisionFor Toy.crypto (removeScGetHistory [97] 5 ()) ∧
    NoCollisionFor Toy.crypto (insertGetHistory [97] 5 6 () ()) ∧
    NoCollisionFor Toy.crypto (insertSrvPutHistory [97] 5 ()) ∧
    NoCollisionFor Toy.crypto (insGetHistory [97] 5 6 ()) ∧
    NoCollisionFor Toy.crypto (delGetHistory [97] 5 6 () ()) ∧
    NoCollisionFor Toy.crypto (searchScGetHistory [97] 5 6 () ()) ∧
    NoCollisionFor Toy.crypto (badInsHistory [97] 5 ()) ∧
    NoCollisionFor Toy.crypto (badDelHistory [97] 5 ()) ∧
    NoCollisionFor Toy.crypto (duplicatesHistory [97] 5 ()) := by
  refine ⟨?_, ?_, ?_, ?_, ?_, ?_, ?_, ?_, ?_, ?_, ?_, ?_⟩ <;>
    exact sample_noCollision _ (by decide) (by decide)

end Verif.Janus.Faults
