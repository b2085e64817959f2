import Verif.Janus.Toy
import Verif.Diana.ParallelProps

/-!
# Janus: C12, C13, C14, C15
-/

set_option linter.unusedSectionVars false

namespace Verif.Janus

open Verif

variable {PK KS CT Rand : Type}

/-! ## C12 -/

theorem kw_mem (ops : List (Op Rand)) : ∀ op ∈ ops, Spec.Op.kw op ∈ ops.map Spec.Op.kw :=
  fun op h => List.mem_map.mpr ⟨op, h, rfl⟩

theorem docs_mem (ops : List (Op Rand)) :
    ∀ op ∈ ops, ∀ i ∈ Spec.Op.docs op, i ∈ ops.flatMap Spec.Op.docs :=
  fun op h _ hi => List.mem_flatMap.mpr ⟨op, h, hi⟩

theorem docsOf_mem (ops : List (Op Rand)) :
    ∀ op ∈ ops, ∀ i ∈ Spec.Op.docs op, i ∈ Spec.docsOf (Spec.Op.kw op) ops :=
  fun op h _ hi => List.mem_flatMap.mpr ⟨op, List.mem_filter.mpr ⟨h, by simp⟩, hi⟩

theorem length_metasAt (E : Str → Nat × Bool) (ops : List (Op Rand)) :
    (Spec.insertMetas E ops).length + (Spec.removeMetas E ops).length ≤ ops.length := by
  induction ops generalizing E with
  | nil => simp [Spec.insertMetas, Spec.removeMetas]
  | cons op ops ih =>
    cases op with
    | insert w i r => have := ih (Spec.setEpoch E w ((E w).1, true)); simp [Spec.insertMetas, Spec.removeMetas]; omega
    | remove w i => have := ih (Spec.setEpoch E w ((E w).1, true)); simp [Spec.insertMetas, Spec.removeMetas]; omega
    | search w =>
      have := ih (Spec.setEpoch E w ((E w).1 + if (E w).2 then 1 else 0, false))
      simp [Spec.insertMetas, Spec.removeMetas]; omega

theorem mem_metasAt (E : Str → Nat × Bool) (ops : List (Op Rand)) (n : Nat) (hE : ∀ w, (E w).1 ≤ n) (mk : Str)
    (h : mk ∈ Spec.insertMetas E ops ∨ mk ∈ Spec.removeMetas E ops) :
    ∃ w ∈ ops.map Spec.Op.kw, ∃ e ≤ n + ops.length, mk = metaNat w e := by
  induction ops generalizing E n with
  | nil => simp [Spec.insertMetas, Spec.removeMetas] at h
  | cons op ops ih =>
    have hset : ∀ w b, ∀ v, (Spec.setEpoch E w ((E w).1, b) v).1 ≤ n := by
      intro w b v; unfold Spec.setEpoch; split
      · exact hE w
      · exact hE v
    have hset' : ∀ w b, ∀ v, (Spec.setEpoch E w ((E w).1 + (if (E w).2 then 1 else 0), b) v).1 ≤ n + 1 := by
      intro w b v; unfold Spec.setEpoch; split
      · have := hE w
        show (E w).1 + (if (E w).2 then 1 else 0) ≤ n + 1
        split <;> omega
      · have := hE v; omega
    have key : ∀ (E' : Str → Nat × Bool) (n' : Nat), n' ≤ n + 1 → (∀ v, (E' v).1 ≤ n') →
        (mk ∈ Spec.insertMetas E' ops ∨ mk ∈ Spec.removeMetas E' ops) →
        ∃ w ∈ (op :: ops).map Spec.Op.kw, ∃ e ≤ n + (op :: ops).length, mk = metaNat w e := by
      intro E' n' hn' h1 h2
      obtain ⟨w, hw, e, he, hm⟩ := ih E' n' h1 h2
      exact ⟨w, by simp at hw ⊢; exact Or.inr hw, e, by simp; omega, hm⟩
    cases op with
    | insert w i r =>
      simp only [Spec.insertMetas, Spec.removeMetas, List.mem_cons] at h
      rcases h with (h | h) | h
      · exact ⟨w, by simp [Spec.Op.kw], (E w).1, by have := hE w; simp; omega, h⟩
      · exact key _ n (by omega) (hset w true) (Or.inl h)
      · exact key _ n (by omega) (hset w true) (Or.inr h)
    | remove w i =>
      simp only [Spec.insertMetas, Spec.removeMetas, List.mem_cons] at h
      rcases h with h | (h | h)
      · exact key _ n (by omega) (hset w true) (Or.inl h)
      · exact ⟨w, by simp [Spec.Op.kw], (E w).1, by have := hE w; simp; omega, h⟩
      · exact key _ n (by omega) (hset w true) (Or.inr h)
    | search w =>
      simp only [Spec.insertMetas, Spec.removeMetas] at h
      exact key _ (n + 1) (by omega) (hset' w false) h

theorem diana_noCollision_mono {Kw V : Type} (c : Diana.Crypto Kw V) {B B' : Kw → Nat} (h : ∀ w, B' w ≤ B w)
    (hnc : Diana.NoCollision c B) : Diana.NoCollision c B' :=
  fun w a v b ha hb e => hnc w a v b (Nat.lt_of_lt_of_le ha (h w)) (Nat.lt_of_lt_of_le hb (h v)) e

/-- The points used are among those of `NoCollisionFor`. -/
theorem noCollisionAt (c : Crypto PK KS CT Rand) (ops : List (Op Rand)) (h : NoCollisionFor c ops) : NoCollisionAt c ops := by
  have hl := length_metasAt (fun _ => (0, false)) ops
  have key : ∀ (l : List Str) (mk : Str), l.length ≤ ops.length →
      (∀ mk ∈ l, mk ∈ Spec.insertMetas (fun _ => (0, false)) ops ∨ mk ∈ Spec.removeMetas (fun _ => (0, false)) ops) →
      l.count mk ≤ bound (ops.map Spec.Op.kw) ops.length mk := by
    intro l mk h1 h2
    by_cases hm : mk ∈ l
    · obtain ⟨w, hw, e, he, rfl⟩ := mem_metasAt _ ops 0 (by simp) mk (h2 mk hm)
      rw [bound_meta _ _ w e hw (by omega)]
      exact Nat.le_trans List.count_le_length h1
    · rw [List.count_eq_zero.mpr hm]; exact Nat.zero_le _
  refine ⟨diana_noCollision_mono c.ins (fun mk => key _ mk (by omega) (fun _ => Or.inl)) h.ins,
    diana_noCollision_mono c.del (fun mk => key _ mk (by omega) (fun _ => Or.inr)) h.del, h.kw, ?_⟩
  intro w i hi j hj e
  have hsub : ∀ i ∈ Spec.docsOf w ops, w ∈ ops.map Spec.Op.kw ∧ i ∈ ops.flatMap Spec.Op.docs := by
    intro i hi
    obtain ⟨op, ho, hd⟩ := List.mem_flatMap.mp hi
    obtain ⟨ho, hw⟩ := List.mem_filter.mp ho
    exact ⟨List.mem_map.mpr ⟨op, ho, by simpa using hw⟩, List.mem_flatMap.mpr ⟨op, ho, hd⟩⟩
  exact h.tags w (hsub i hi).1 i (hsub i hi).2 j (hsub j hj).2 e

theorem run_init (c : Crypto PK KS CT Rand) (ops : List (Op Rand)) (hn : ops.length + 1 < 2 ^ 32)
    (hnc : NoCollisionAt c ops) :
    ∃ s' SI SD, run c Sys.init ops = .ok (s', (epRun c (fun _ => Ep.init) ops).2) ∧
      InvAt c (ops.map Spec.Op.kw) (fun mk => (Spec.insertMetas (fun _ => (0, false)) ops).count mk)
        (fun mk => (Spec.removeMetas (fun _ => (0, false)) ops).count mk) s' (epRun c (fun _ => Ep.init) ops).1 SI SD ∧
      ∀ w, ((epRun c (fun _ => Ep.init) ops).1 w).epoch ≤ ops.length ∧
        ((epRun c (fun _ => Ep.init) ops).1 w).rem.length ≤ ops.length := by
  have hl := length_metasAt (fun _ => (0, false)) ops
  have hBI : ∀ mk, (Spec.insertMetas (fun _ => (0, false)) ops).count mk ≤ ops.length :=
    fun mk => Nat.le_trans List.count_le_length (by omega)
  have hBD : ∀ mk, (Spec.removeMetas (fun _ => (0, false)) ops).count mk ≤ ops.length :=
    fun mk => Nat.le_trans List.count_le_length (by omega)
  have hep : epochs (fun _ => (Ep.init : Ep Rand)) = fun _ => (0, false) := by funext w; simp [epochs, Ep.init]
  obtain ⟨s', SI, SD, h1, h2, h3⟩ := run_epochs c _ ops.length _ _ hn hBI hBD hnc.ins hnc.del hnc.kw ops (kw_mem ops) _ _ _ _
    (inv_init c _ _ _) (by intro w; simp [Ep.init]) (by intro mk; rw [hep]; simp) (by intro mk; rw [hep]; simp)
  exact ⟨s', SI, SD, h1, h2, fun w => ⟨(h3 w).1, Nat.le_trans (h3 w).2.2 (hBD _)⟩⟩

/-- **C12**, the part that holds, when there is no collision on the points that the history uses. -/
theorem C12_points_partial (c : Crypto PK KS CT Rand) (laws : PunctLaws c)
    (ops : List (Op Rand)) (hn : ops.length + 1 < 2 ^ 32) (hnc : NoCollisionAt c ops)
    (hadm : Spec.admissible (fun _ => ⟨[], []⟩) ops = true) :
    ∃ s', run c Sys.init ops = .ok (s', Spec.run Spec.empty ops) := by
  obtain ⟨s', _, _, hr, -, -⟩ := run_init c ops hn hnc
  refine ⟨s', ?_⟩
  rw [hr, epRun_spec c laws _ (fun w => Spec.docsOf w ops) (fun w _ => hnc.tags w) ops (kw_mem ops) (docsOf_mem ops) _ Spec.empty
    (fun _ => ⟨[], []⟩) ?_ hadm]
  intro w _
  constructor <;> simp [Ep.init, Spec.empty]

/-- **C12**: no history makes the server fail, when there is no collision on the points that it uses. -/
theorem C12_points_no_fault (c : Crypto PK KS CT Rand) (ops : List (Op Rand))
    (hn : ops.length + 1 < 2 ^ 32) (hnc : NoCollisionAt c ops) :
    ∃ s' outs, run c Sys.init ops = .ok (s', outs) := by
  obtain ⟨s', _, _, hr, -, -⟩ := run_init c ops hn hnc
  exact ⟨s', _, hr⟩

/-- **C12**, the part that holds: when, between two searches of a keyword, no document is
re-inserted after its removal and there is at most one removal (or nothing but removals), every
search returns exactly the documents inserted and not removed, oldest first.
Missing: epochs with two removals and an insertion, and re-insertions after a removal; see the
`_violated` theorems. -/
theorem C12_search_exact_partial (c : Crypto PK KS CT Rand) (laws : PunctLaws c)
    (ops : List (Op Rand)) (hn : ops.length + 1 < 2 ^ 32) (hnc : NoCollisionFor c ops)
    (hadm : Spec.admissible (fun _ => ⟨[], []⟩) ops = true) :
    ∃ s', run c Sys.init ops = .ok (s', Spec.run Spec.empty ops) := by
  exact C12_points_partial c laws ops hn (noCollisionAt c ops hnc) hadm

/-- **C12**: no history makes the server fail, whatever the punctures: no exception, no
out-of-bounds read of the cache, no infinite loop. -/
theorem C12_no_fault (c : Crypto PK KS CT Rand) (ops : List (Op Rand))
    (hn : ops.length + 1 < 2 ^ 32) (hnc : NoCollisionFor c ops) :
    ∃ s' outs, run c Sys.init ops = .ok (s', outs) := by
  obtain ⟨s', _, _, hr, -, -⟩ := run_init c ops hn (noCollisionAt c ops hnc)
  exact ⟨s', _, hr⟩

/-- **C12**, violated for every cryptography: a document re-inserted after its removal, without a
search in between, is not found although it is stored. -/
theorem C12_reinsertion_violated (c : Crypto PK KS CT Rand) (laws : PunctLaws c) (w : Str)
    (i : Index) (r r' : Rand)
    (hnc : NoCollisionFor c [.insert w i r, .remove w i, .insert w i r', .search w]) :
    (∃ s', run c Sys.init [.insert w i r, .remove w i, .insert w i r', .search w] =
      .ok (s', [[]])) ∧
    Spec.run Spec.empty [Op.insert w i r, .remove w i, .insert w i r', .search w] = [[i]] := by
  constructor
  · obtain ⟨s', _, _, hr, -, -⟩ := run_init c _ (by simp) (noCollisionAt c _ hnc)
    refine ⟨s', ?_⟩
    rw [hr]
    have hinj : ∀ a ∈ [i], ∀ b ∈ [i], docTag c w a = docTag c w b → a = b := by
      intro a ha b hb _; simp at ha hb; rw [ha, hb]
    have hd := decrypt_fresh c laws hinj 0 [i] (by simp) [(i, r), (i, r')] (by simp)
      (Or.inr (by simp))
    simp [epRun, setEp, Ep.init, Ep.newCache, filterCache, hd]
  · simp [Spec.run, Spec.Store.set, Spec.empty]

/-- The history of the violation: three insertions, two removals, a search. -/
def twoRemovals : List (Op Unit) :=
  [.insert [97] 1 (), .insert [97] 2 (), .insert [97] 3 (), .remove [97] 1, .remove [97] 2,
    .search [97]]

theorem toy_noCollisionFor (ops : List (Op Unit)) (h1 : ∀ w ∈ ops.map Spec.Op.kw, w.length = 1)
    (h2 : ops.length ≤ 256) : NoCollisionFor Toy.crypto ops :=
  Toy.noCollision _ h1 _ _ h2

/-- **C12**, violated: with two removals before a search, the punctures are numbered 1, 1 (see C13),
the key is not a punctured key, and the document that was *not* removed is lost — for a
cryptography that satisfies its whole contract. -/
theorem C12_two_removals_violated :
    PunctLaws Toy.crypto ∧ NoCollisionFor Toy.crypto twoRemovals ∧
    (∃ s', run Toy.crypto Sys.init twoRemovals = .ok (s', [[]])) ∧
    Spec.run Spec.empty twoRemovals = [[3]] := by
  have hnc : NoCollisionFor Toy.crypto twoRemovals :=
    toy_noCollisionFor _ (by simp [twoRemovals, Spec.Op.kw]) (by simp [twoRemovals])
  refine ⟨Toy.laws, hnc, ?_, by simp [twoRemovals, Spec.run, Spec.Store.set, Spec.empty]⟩
  obtain ⟨s', _, _, hr, -, -⟩ := run_init Toy.crypto twoRemovals (by simp [twoRemovals]) (noCollisionAt _ _ hnc)
  refine ⟨s', ?_⟩
  rw [hr]
  have : ∀ ct, Toy.decrypt (searchKey Toy.crypto [97] 0 [1, 2]) ct = none := by
    intro ct
    have : searchKey Toy.crypto [97] 0 [1, 2] =
        [(2, Vector.replicate 16 0), (1, docTag Toy.crypto [97] 1),
          (1, docTag Toy.crypto [97] 2)] := rfl
    rw [this, Toy.decrypt]
    apply if_neg
    rintro ⟨h, -⟩
    revert h
    decide
  have hd : ∀ cts, decryptAll Toy.crypto (searchKey Toy.crypto [97] 0 [1, 2]) cts = [] := by
    intro cts
    unfold decryptAll
    rw [List.filterMap_eq_nil_iff]
    intro ct _
    have h : Toy.crypto.decrypt (searchKey Toy.crypto [97] 0 [1, 2]) ct = none := this ct
    rw [h]
    rfl
  have hd' := hd (storedCts Toy.crypto [97] 0 [(1, ()), (2, ()), (3, ())])
  have : (epRun Toy.crypto (fun _ => Ep.init) twoRemovals).2 =
      [(decryptAll Toy.crypto (searchKey Toy.crypto [97] 0 [1, 2])
        (storedCts Toy.crypto [97] 0 [(1, ()), (2, ()), (3, ())])).map Prod.fst] := rfl
  rw [this, hd']
  rfl

/-- Non-vacuity of `C12_search_exact_partial`: insertions, a removal, searches, removal of cached
results, several removals without insertion, re-insertion in a later epoch, two keywords. -/
example : ∃ s', run Toy.crypto Sys.init
    [.insert [97] 1 (), .insert [97] 2 (), .insert [98] 9 (), .remove [97] 1, .search [97],
      .insert [97] 1 (), .insert [97] 3 (), .search [97], .remove [97] 1, .remove [97] 3,
      .search [97], .search [98]] =
    .ok (s', [[2], [2, 1, 3], [2], [9]]) := by
  have := C12_search_exact_partial Toy.crypto Toy.laws
    [.insert [97] 1 (), .insert [97] 2 (), .insert [98] 9 (), .remove [97] 1, .search [97],
      .insert [97] 1 (), .insert [97] 3 (), .search [97], .remove [97] 1, .remove [97] 3,
      .search [97], .search [98]] (by simp)
    (toy_noCollisionFor _ (by simp [Spec.Op.kw]) (by simp)) (by decide)
  simpa [Spec.run, Spec.Store.set, Spec.empty] using this

/-- The same history, for which only the points that it uses matter. -/
example : NoCollisionAt Toy.crypto
      [.insert [97] 1 (), .search [97], .insert [97] 2 (), .remove [97] 1, .search [97]] ∧
    ∃ s', run Toy.crypto Sys.init [.insert [97] 1 (), .search [97], .insert [97] 2 (), .remove [97] 1, .search [97]] =
      .ok (s', [[1], [2]]) := by
  have hnc := noCollisionAt Toy.crypto [.insert [97] 1 (), .search [97], .insert [97] 2 (), .remove [97] 1, .search [97]]
    (toy_noCollisionFor _ (by simp [Spec.Op.kw]) (by simp))
  refine ⟨hnc, ?_⟩
  have := C12_points_partial Toy.crypto Toy.laws _ (by simp) hnc (by decide)
  simpa [Spec.run, Spec.Store.set, Spec.empty] using this

example : (∃ s', run Toy.crypto Sys.init
      [.insert [97] 7 (), .remove [97] 7, .insert [97] 7 (), .search [97]] = .ok (s', [[]])) :=
  (C12_reinsertion_violated Toy.crypto Toy.laws [97] 7 () ()
    (toy_noCollisionFor _ (by simp [Spec.Op.kw]) (by simp))).1

/-! ## C13 -/

theorem rem_length (c : Crypto PK KS CT Rand) (w : Str) (ops : List (Op Rand))
    (E : Str → Ep Rand) :
    ((epRun c E ops).1 w).rem.length = Spec.removalsSince w (E w).rem.length ops := by
  induction ops generalizing E with
  | nil => rfl
  | cons op ops ih =>
    cases op with
    | insert v i r =>
      simp only [epRun, Spec.removalsSince, ih]
      by_cases hv : w = v
      · subst hv; rw [setEp_self]
      · rw [setEp_ne _ _ hv]
    | remove v i =>
      simp only [epRun, Spec.removalsSince, ih]
      by_cases hv : w = v
      · subst hv; rw [setEp_self]; simp
      · rw [setEp_ne _ _ hv]; simp [Ne.symm hv]
    | search v =>
      simp only [epRun, Spec.removalsSince, ih]
      by_cases hv : w = v
      · subst hv; rw [setEp_self]; simp [Ep.search]
      · rw [setEp_ne _ _ hv]; simp [Ne.symm hv]

/-- **C13**, exact characterisation: after `k` removals of `w` since its last search, the next
removal uses the puncture number 1 if `k = 0` and `k` otherwise: 1, 1, 2, 3, … -/
theorem C13_numbers_used (c : Crypto PK KS CT Rand) (ops : List (Op Rand))
    (hn : ops.length + 1 < 2 ^ 32) (hnc : NoCollisionFor c ops) (s : Sys KS CT)
    (outs : List (List Index)) (hrun : run c Sys.init ops = .ok (s, outs)) (w : Str) (i : Index) :
    removalShare c s.client w i =
      c.incPuncture (c.derive (metaKeyword w (searchCounter s.client w)))
        (UInt32.ofNat (if Spec.removalsSince w 0 ops = 0 then 1 else Spec.removalsSince w 0 ops))
        (docTag c w i) := by
  obtain ⟨s', _, _, hr, hI, hE⟩ := run_init c ops hn (noCollisionAt c ops hnc)
  rw [hrun] at hr
  obtain ⟨rfl, -⟩ := Prod.mk.inj (Except.ok.inj hr)
  have he : ∀ v, ((epRun c (fun _ => Ep.init) ops).1 v).epoch < 2 ^ 32 :=
    fun v => by have := (hE v).1; omega
  rw [removalShare_eq c hI he, metaKeyword_eq c hI w (he w), rem_length]
  rfl

/-- **C13**, the part that holds about numbering: the first removal uses number 1. Missing: all the
others. -/
theorem C13_first_removal_partial (c : Crypto PK KS CT Rand) (ops : List (Op Rand))
    (hn : ops.length + 1 < 2 ^ 32) (hnc : NoCollisionFor c ops) (s : Sys KS CT)
    (outs : List (List Index)) (hrun : run c Sys.init ops = .ok (s, outs)) (w : Str) (i : Index)
    (h0 : Spec.removalsSince w 0 ops = 0) :
    removalShare c s.client w i =
      c.incPuncture (c.derive (metaKeyword w (searchCounter s.client w))) 1 (docTag c w i) := by
  have := C13_numbers_used c ops hn hnc s outs hrun w i
  rw [h0] at this
  exact this

/-- **C13**: the search request carries the number of removals since the last search. -/
theorem C13_search_carries_count (c : Crypto PK KS CT Rand) (ops : List (Op Rand))
    (hn : ops.length + 1 < 2 ^ 32) (hnc : NoCollisionFor c ops) (s : Sys KS CT)
    (outs : List (List Index)) (hrun : run c Sys.init ops = .ok (s, outs)) (w : Str) :
    (searchRequest c s.client w).1.firstKeyShare =
      c.initialKeyshare (c.derive (metaKeyword w (searchCounter s.client w)))
        (UInt32.ofNat (Spec.removalsSince w 0 ops)) ∧
    (searchRequest c s.client w).1.del.addCount.toNat = Spec.removalsSince w 0 ops := by
  obtain ⟨s', SI, SD, hr, hI, hE⟩ := run_init c ops hn (noCollisionAt c ops hnc)
  rw [hrun] at hr
  obtain ⟨rfl, -⟩ := Prod.mk.inj (Except.ok.inj hr)
  have he : ((epRun c (fun _ => Ep.init) ops).1 w).epoch < 2 ^ 32 := by have := (hE w).1; omega
  have hl : ((epRun c (fun _ => Ep.init) ops).1 w).rem.length = Spec.removalsSince w 0 ops :=
    rem_length c w ops _
  have hctr := hI.del.counters (metaNat w ((epRun c (fun _ => Ep.init) ops).1 w).epoch)
  rw [hI.delSlots w, List.length_map, usedShares_length, hl] at hctr
  have hb : Spec.removalsSince w 0 ops < 2 ^ 32 := by have := (hE w).2; omega
  have hadd := addCount_slots c.del _ _ _ hctr hb
  constructor
  · simp only [searchRequest, metaKeyword_eq c hI w he]
    rw [hadd]
  · simp only [searchRequest, metaKeyword_eq c hI w he]
    rw [hadd]
    simp [UInt32.toNat_ofNat']; omega

/-- **C13**, violated: the second removal of an epoch uses number 1 again, for every cryptography —
and number 1 and number 2 give different key shares, e.g. in the toy instance. -/
theorem C13_second_removal_violated (c : Crypto PK KS CT Rand) (w : Str) (i j : Index)
    (hnc : NoCollisionFor c [Op.remove w i]) (s : Sys KS CT) (outs : List (List Index))
    (hrun : run c Sys.init [.remove w i] = .ok (s, outs)) :
    removalShare c s.client w j =
      c.incPuncture (c.derive (metaKeyword w (searchCounter s.client w))) 1 (docTag c w j) := by
  have := C13_numbers_used c _ (by simp) hnc s outs hrun w j
  simpa [Spec.removalsSince] using this

example (j : Index) : ∃ s outs, run Toy.crypto Sys.init [.remove [97] 4] = .ok (s, outs) ∧
    removalShare Toy.crypto s.client [97] j ≠
      Toy.crypto.incPuncture (Toy.crypto.derive (metaKeyword [97] (searchCounter s.client [97]))) 2
        (docTag Toy.crypto [97] j) := by
  have hnc := toy_noCollisionFor [.remove [97] 4] (by simp [Spec.Op.kw]) (by simp)
  obtain ⟨s, outs, h⟩ := C12_no_fault Toy.crypto [.remove [97] 4] (by decide) hnc
  refine ⟨s, outs, h, ?_⟩
  rw [C13_second_removal_violated Toy.crypto [97] 4 j hnc s outs h]
  intro h'
  have := congrArg Prod.fst h'
  exact absurd (show (1 : UInt32) = 2 from this) (by decide)

example : ∃ s outs, run Toy.crypto Sys.init
      [.insert [97] 1 (), .remove [97] 4, .remove [97] 5, .remove [97] 6] = .ok (s, outs) ∧
    (searchRequest Toy.crypto s.client [97]).1.del.addCount.toNat = 3 ∧
    removalShare Toy.crypto s.client [97] 7 =
      Toy.crypto.incPuncture (Toy.crypto.derive (metaKeyword [97] (searchCounter s.client [97]))) 3
        (docTag Toy.crypto [97] 7) := by
  have hnc := toy_noCollisionFor
    [.insert [97] 1 (), .remove [97] 4, .remove [97] 5, .remove [97] 6] (by simp [Spec.Op.kw])
    (by simp)
  obtain ⟨s, outs, h⟩ := C12_no_fault Toy.crypto _ (by decide) hnc
  exact ⟨s, outs, h, (C13_search_carries_count Toy.crypto _ (by decide) hnc s outs h [97]).2,
    C13_numbers_used Toy.crypto _ (by decide) hnc s outs h [97] 7⟩

/-! ## C14 -/

/-- **C14**: two different (keyword, epoch) pairs never give the same internal keyword, whatever the
bytes of the keywords. -/
theorem C14_meta_injective (v w : Str) (a b : UInt32) (h : metaKeyword v a = metaKeyword w b) :
    v = w ∧ a = b := by
  obtain ⟨h1, h2⟩ := metaNat_inj a.toNat_lt b.toNat_lt h
  exact ⟨h1, UInt32.toNat_inj.mp h2⟩

/-- **C14**: two different (keyword, document) pairs never give the same tag input, whatever the
bytes of the keywords. -/
theorem C14_tag_injective (v w : Str) (i j : Index)
    (h : keywordDocString v i = keywordDocString w j) : v = w ∧ i = j := by
  unfold keywordDocString at h
  obtain ⟨h1, h2⟩ := List.append_inj h (by simp)
  obtain ⟨h3, -⟩ := List.append_inj h1 (by simp)
  exact ⟨h2, BitVec.eq_of_toNat_eq (hexFixed_inj (by have := i.isLt; omega)
    (by have := j.isLt; omega) h3)⟩

/-- The encodings on values: epoch 0x1f of keyword "a" is `0000001fa`. -/
example : metaKeyword [97] 0x1f = [48, 48, 48, 48, 48, 48, 49, 102, 97] := by decide

example : metaKeyword (metaKeyword [97] 1) 2 ≠ metaKeyword [97] 2 := fun h =>
  absurd (C14_meta_injective _ _ _ _ h).1 (by decide)

/-! ## C15 -/

theorem diana_search_del (c : Diana.Crypto Str CT) (edb : Diana.Edb CT) (m : Map Str UInt32)
    (w : Str) (hnc : Diana.RequestNoCollision c w (Diana.searchRequest c m w).addCount.toNat) :
    ∃ res edb', Diana.search c edb (Diana.searchRequest c m w) false = some (res, edb) ∧
      Diana.search c edb (Diana.searchRequest c m w) true = some (res, edb') := by
  rcases Diana.searchRequest_cases c m w with h0 | ⟨n, hn, hn2, ha, hr⟩
  · exact ⟨[], edb, by rw [Diana.search, if_pos h0], by rw [Diana.search, if_pos h0]⟩
  · have hnd : ((Diana.leavesOf c w n).map (fun e => c.token e.2)).Nodup := by
      rw [Diana.tokens_leavesOf]
      apply List.Nodup.map_on _ List.nodup_range
      intro a h1 b h2 hab
      exact hnc a b (by rw [ha]; exact List.mem_range.mp h1) (by rw [ha]; exact List.mem_range.mp h2) hab
    refine ⟨(Diana.leavesOf c w n).filterMap (fun e => Diana.lookup c edb e.2),
      (Diana.searchLoop c true edb (Diana.leavesOf c w n)).2, ?_, ?_⟩
    · rw [Diana.search_leaves c edb _ w n hn hn2 ha hr, Diana.searchLoop_keep]
    · rw [Diana.search_leaves c edb _ w n hn hn2 ha hr, ← (Diana.searchLoop_delete c edb _ hnd).1]

/-- **C15**: for every client and server state whose cache can be read, every thread count from 1 up
and every schedule of the threads retrieving the key shares, the parallel search reports exactly
the sequence of the sequential search to its callback, returns the same multiset, leaves the same
deletion database and the same multiset in the cache. (The entries of the insertion database are
not deleted by the parallel variant.) -/
theorem C15_parallel_eq_sequential (c : Crypto PK KS CT Rand) (cl : Client) (srv : Server KS CT)
    (w : Str) (threads : UInt8) (ht : threads ≠ 0)
    (hi : Diana.RequestNoCollision c.ins (metaKeyword w (searchCounter cl w))
      (searchRequest c cl w).1.ins.addCount.toNat)
    (hd : Diana.RequestNoCollision c.del (metaKeyword w (searchCounter cl w))
      (searchRequest c cl w).1.del.addCount.toNat)
    (reported listed : List Index) (srv' : Server KS CT)
    (h : SearchParallelRun c srv (searchRequest c cl w).1 threads reported listed srv') :
    ∃ res srv'', search c srv (searchRequest c cl w).1 = .ok (res, srv'') ∧
      reported = res ∧ listed.Perm res ∧
      srv'.delEdb = srv''.delEdb ∧ srv'.insEdb = srv.insEdb ∧
      (∃ l l', readCache srv'.cache (c.kwToken w) = .ok l ∧
        readCache srv''.cache (c.kwToken w) = .ok l' ∧ l.Perm l') ∧
      ∀ k, k ≠ c.kwToken w → readCache srv'.cache k = readCache srv''.cache k := by
  obtain ⟨trace, delEdb, cached, fresh, hpar, hafter, rfl, rfl⟩ := h
  have hdel := Diana.C08_list c.del srv.delEdb cl.delCtr
    (metaKeyword w (searchCounter cl w)) threads ht true (fun _ => hd) trace delEdb hpar
  obtain ⟨ires, iedb, hi1, hi2⟩ := diana_search_del c.ins srv.insEdb cl.insCtr
    (metaKeyword w (searchCounter cl w)) hi
  have e1 : (searchRequest c cl w).1.ins =
      Diana.searchRequest c.ins cl.insCtr (metaKeyword w (searchCounter cl w)) := rfl
  have e2 : (searchRequest c cl w).1.del =
      Diana.searchRequest c.del cl.delCtr (metaKeyword w (searchCounter cl w)) := rfl
  have e3 : (searchRequest c cl w).1.kwToken = c.kwToken w := rfl
  unfold afterShares at hafter
  rw [e1, e3, hi1] at hafter
  unfold search
  rw [e1, e2, e3, hi2, hdel]
  cases hc : readCache srv.cache (c.kwToken w) with
  | error e =>
    rw [hc] at hafter
    simp [bind, Except.bind] at hafter
  | ok cl0 =>
    rw [hc] at hafter
    simp only [ofOption, bind, Except.bind, pure, Except.pure, Except.ok.injEq,
      Prod.mk.injEq] at hafter ⊢
    obtain ⟨rfl, rfl, rfl⟩ := hafter
    refine ⟨_, _, ⟨rfl, rfl⟩, rfl, List.perm_append_comm, rfl, rfl, ⟨_, _,
      readCache_writeCache _ _ _, readCache_writeCache _ _ _, List.perm_append_comm⟩, ?_⟩
    intro k hk
    simp only
    rw [readCache_writeCache_ne _ _ hk, readCache_writeCache_ne _ _ hk]

/-- **C15**: the parallel search completes, whatever the state of client and server (with a readable
cache). -/
theorem C15_terminates (c : Crypto PK KS CT Rand) (cl : Client) (srv : Server KS CT)
    (w : Str) (threads : UInt8) (ht : threads ≠ 0)
    (hi : Diana.RequestNoCollision c.ins (metaKeyword w (searchCounter cl w))
      (searchRequest c cl w).1.ins.addCount.toNat)
    (l : List (Index × Tag)) (hcache : readCache srv.cache (c.kwToken w) = .ok l) :
    ∃ reported listed srv',
      SearchParallelRun c srv (searchRequest c cl w).1 threads reported listed srv' := by
  obtain ⟨trace, edb', hpar⟩ := Diana.C08_terminates c.del srv.delEdb cl.delCtr
    (metaKeyword w (searchCounter cl w)) threads ht true
  obtain ⟨ires, iedb, hi1, hi2⟩ := diana_search_del c.ins srv.insEdb cl.insCtr
    (metaKeyword w (searchCounter cl w)) hi
  have e1 : (searchRequest c cl w).1.ins =
      Diana.searchRequest c.ins cl.insCtr (metaKeyword w (searchCounter cl w)) := rfl
  have e3 : (searchRequest c cl w).1.kwToken = c.kwToken w := rfl
  have : ∃ a b srv', afterShares c { srv with delEdb := edb' } (searchRequest c cl w).1
      (Diana.listResult threads trace) = .ok (a, b, srv') := by
    unfold afterShares
    rw [e1, e3]
    simp only [hcache, hi1, ofOption, bind, Except.bind, pure, Except.pure, Except.ok.injEq,
      Prod.mk.injEq]
    exact ⟨_, _, _, rfl, rfl, rfl⟩
  obtain ⟨a, b, srv', hab⟩ := this
  exact ⟨a ++ b, b ++ a, srv', trace, edb', a, b, hpar, hab, rfl, rfl⟩

theorem toy_requestNoCollision {V : Type} (v0 : V) (w : Str) (n : Nat) (hn : n ≤ 256) :
    Diana.RequestNoCollision (Toy.diana v0) w n := by
  intro a b ha hb heq
  have heq' : (Toy.cut w).set 15 (UInt8.ofNat a) = (Toy.cut w).set 15 (UInt8.ofNat b) := by
    have h : Diana.Toy.narrow (Diana.Toy.wide ((Toy.cut w).set 15 (UInt8.ofNat a))) =
        Diana.Toy.narrow (Diana.Toy.wide ((Toy.cut w).set 15 (UInt8.ofNat b))) := heq
    rwa [Diana.Toy.narrow_wide, Diana.Toy.narrow_wide] at h
  have := congrArg (fun v : Vector UInt8 16 => v[15]) heq'
  simp only [Vector.getElem_set_self] at this
  have := congrArg UInt8.toNat this
  simp at this
  omega

/-- Non-vacuity of C15: after insertions, a search, more insertions and a removal, a parallel search
with 3 threads exists, and every such search reports 2, 3 (the sequential result). -/
example : ∃ s outs, run Toy.crypto Sys.init
      [.insert [97] 1 (), .insert [97] 2 (), .search [97], .insert [97] 3 (), .remove [97] 1] =
        .ok (s, outs) ∧
    (∃ reported listed srv', SearchParallelRun Toy.crypto s.server
      (searchRequest Toy.crypto s.client [97]).1 3 reported listed srv') ∧
    ∀ reported listed srv', SearchParallelRun Toy.crypto s.server
      (searchRequest Toy.crypto s.client [97]).1 3 reported listed srv' → reported = [2, 3] := by
  have hnc := toy_noCollisionFor
    [.insert [97] 1 (), .insert [97] 2 (), .search [97], .insert [97] 3 (), .remove [97] 1,
      .search [97]] (by simp [Spec.Op.kw]) (by simp)
  obtain ⟨s6, hs6⟩ := C12_search_exact_partial Toy.crypto Toy.laws _ (by decide) hnc (by decide)
  have hnc5 := toy_noCollisionFor
    [.insert [97] 1 (), .insert [97] 2 (), .search [97], .insert [97] 3 (), .remove [97] 1]
    (by simp [Spec.Op.kw]) (by simp)
  obtain ⟨s, SI, SD, hs, hI, hE⟩ := run_init Toy.crypto _ (by decide) (noCollisionAt _ _ hnc5)
  refine ⟨s, _, hs, ?_⟩
  have hcache := hI.cache [97] (by simp [Spec.Op.kw])
  have hdn : (searchRequest Toy.crypto s.client [97]).1.del.addCount.toNat ≤ 256 := by
    rw [(C13_search_carries_count Toy.crypto _ (by decide) hnc5 s _ hs [97]).2]; decide
  have hin : (searchRequest Toy.crypto s.client [97]).1.ins.addCount.toNat ≤ 256 := by
    have he : ((epRun Toy.crypto (fun _ => Ep.init)
        [.insert [97] 1 (), .insert [97] 2 (), .search [97], .insert [97] 3 (),
          .remove [97] 1]).1 [97]).epoch < 2 ^ 32 :=
      Nat.lt_of_le_of_lt (hE [97]).1 (by decide)
    have hctr := hI.ins.counters (metaNat [97] ((epRun Toy.crypto (fun _ => Ep.init)
        [.insert [97] 1 (), .insert [97] 2 (), .search [97], .insert [97] 3 (),
          .remove [97] 1]).1 [97]).epoch)
    rw [hI.insSlots [97], List.length_map, storedCts_length] at hctr
    have hadd := addCount_slots Toy.crypto.ins _ _ _ hctr (by decide)
    simp only [searchRequest, metaKeyword_eq Toy.crypto hI [97] he]
    rw [hadd]
    decide
  have hi := toy_requestNoCollision ((0, Vector.replicate 16 0) : Index × Tag)
    (metaKeyword [97] (searchCounter s.client [97])) _ hin
  have hd := toy_requestNoCollision ((0, Vector.replicate 16 0) : UInt32 × Tag)
    (metaKeyword [97] (searchCounter s.client [97])) _ hdn
  refine ⟨C15_terminates Toy.crypto s.client s.server [97] 3 (by decide) hi _ hcache, ?_⟩
  intro reported listed srv' h
  obtain ⟨res, srv'', h1, rfl, -⟩ := C15_parallel_eq_sequential Toy.crypto s.client s.server [97] 3
    (by decide) hi hd reported listed srv' h
  have happ : ∀ (ops : List (Op Unit)) (s0 : Sys (UInt32 × Tag) (Index × Tag)),
      run Toy.crypto s0 (ops ++ [.search [97]]) =
        match run Toy.crypto s0 ops with
        | .error e => .error e
        | .ok (s', outs) =>
          match run Toy.crypto s' [.search [97]] with
          | .error e => .error e
          | .ok (s'', outs') => .ok (s'', outs ++ outs') := by
    intro ops
    induction ops with
    | nil =>
      intro s0
      simp only [List.nil_append]
      rw [show run Toy.crypto s0 [] = .ok (s0, []) from rfl]
      simp only
      cases run Toy.crypto s0 [.search [97]] with
      | error e => rfl
      | ok p => rfl
    | cons op ops ih =>
      intro s0
      simp only [List.cons_append]
      rw [run, run]
      cases step Toy.crypto s0 op with
      | error e => rfl
      | ok p =>
        simp only [ih]
        cases run Toy.crypto p.1 ops with
        | error e => rfl
        | ok q =>
          simp only
          cases run Toy.crypto q.1 [.search [97]] with
          | error e => rfl
          | ok q' => simp
  have h6 := happ [.insert [97] 1 (), .insert [97] 2 (), .search [97], .insert [97] 3 (),
    .remove [97] 1] Sys.init
  rw [hs] at h6
  simp only [List.cons_append, List.nil_append] at h6
  rw [hs6] at h6
  simp only [run, step, h1] at h6
  have := (Prod.mk.inj (Except.ok.inj h6)).2
  simp [Spec.run, Spec.Store.set, Spec.empty, epRun] at this
  exact this.2.symm

end Verif.Janus
