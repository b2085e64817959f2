import Verif.Janus.CrashLemmas

/-! # From the epochs to the abstract lists, with interruptions -/

set_option linter.unusedSectionVars false

namespace Verif.Janus.Crash

open Verif

variable {PK KS CT Rand : Type}

/-- Relation between the epoch state of a keyword, its abstract lists and its pending operations. -/
structure Rel (c : Crypto PK KS CT Rand) (D : List Index) (w : Str) (E : CEp Rand) (S : Spec.Docs)
    (P : Spec.Pending) : Prop where
  inserted : P.inserted = (E.ins.filterMap id).map (·.1)
  removed : P.removed = E.rem.filterMap id
  lost : P.lostRemovals = (E.rem.filter (fun o => o.isNone)).length
  cacheTags : ∀ e ∈ E.cache, e.2 = docTag c w e.1 ∧ e.1 ∈ D
  insDocs : ∀ e ∈ E.ins.filterMap id, e.1 ∈ D
  remDocs : ∀ i ∈ E.rem.filterMap id, i ∈ D
  now : S.now = (E.cache.map (·.1)).filter (fun i => !(E.rem.filterMap id).contains i) ++
    ((E.ins.filterMap id).map (·.1)).filter (fun i => !(E.rem.filterMap id).contains i)
  base : S.base = E.cache.map (·.1)

theorem ctSlots_stored (c : Crypto PK KS CT Rand) (w : Str) (e : Nat)
    (l : List (Option (Index × Rand))) :
    (ctSlots c w e l).filterMap id = storedCts c w e (l.filterMap id) := by
  unfold ctSlots storedCts
  induction l with
  | nil => rfl
  | cons o l ih => cases o <;> simpa using ih

theorem shareSlots_used (c : Crypto PK KS CT Rand) (w : Str) (e : Nat) (l : List Index) :
    (shareSlots c w e (l.map some)).filterMap id = usedShares c w e l := by
  unfold shareSlots usedShares
  suffices h : ∀ k, (((l.map some).zipIdx k).map (fun d => d.1.map (fun i =>
      c.incPuncture (c.derive (metaNat w e)) (UInt32.ofNat (punctureNumber d.2))
        (docTag c w i)))).filterMap id = (l.zipIdx k).map (fun d =>
    c.incPuncture (c.derive (metaNat w e)) (UInt32.ofNat (punctureNumber d.2)) (docTag c w d.1)) from
    h 0
  induction l with
  | nil => intro k; rfl
  | cons o l ih => intro k; simpa using ih (k + 1)

theorem none_lost (l : List (Option Index)) (h : (l.filter (fun o => o.isNone)).length = 0) :
    l = (l.filterMap id).map some := by
  induction l with
  | nil => rfl
  | cons o l ih =>
    cases o with
    | none => simp at h
    | some i => simpa using ih (by simpa using h)

theorem decrypt_nil (c : Crypto PK KS CT Rand) (l : List KS) : decryptAll c l [] = [] := rfl

theorem rel_search (c : Crypto PK KS CT Rand) (laws : PunctLaws c) {D : List Index} {w : Str}
    (hinj : ∀ i ∈ D, ∀ j ∈ D, docTag c w i = docTag c w j → i = j) {E : CEp Rand} {S P}
    (h : Rel c D w E S P) (hok : P.ok = true) :
    (E.newCache c w).map (·.1) = S.now ∧
      Rel c D w (E.next (E.newCache c w)) ⟨S.now, S.now⟩ ⟨[], [], 0⟩ := by
  have hf := filterCache_fst c hinj (E.rem.filterMap id) h.remDocs E.cache h.cacheTags
  have hd : decryptAll c (c.initialKeyshare (c.derive (metaNat w E.epoch)) (UInt32.ofNat E.rem.length) ::
      (shareSlots c w E.epoch E.rem).filterMap id) ((ctSlots c w E.epoch E.ins).filterMap id) =
      (((E.ins.filterMap id).map (·.1)).filter (fun i => !(E.rem.filterMap id).contains i)).map
        (fun i => (i, docTag c w i)) := by
    rw [ctSlots_stored]
    simp only [Spec.Pending.ok, Bool.or_eq_true, Bool.and_eq_true, decide_eq_true_eq] at hok
    rcases hok with h1 | ⟨h1, h2⟩
    · have h0 : E.ins.filterMap id = [] := by
        rw [h.inserted] at h1; simpa using h1
      rw [h0]
      rfl
    · rw [h.lost] at h2
      have hr := none_lost _ h2
      rw [h.removed] at h1
      have h3 := decrypt_fresh c laws hinj E.epoch (E.rem.filterMap id) h.remDocs
        (E.ins.filterMap id) h.insDocs (Or.inr h1)
      rw [← h3, searchKey, ← shareSlots_used, ← hr]
      have : (E.rem.filterMap id).length = E.rem.length := by
        conv => rhs; rw [hr]
        simp
      rw [this]
  have hS : (E.newCache c w).map (·.1) = S.now := by
    unfold CEp.newCache
    rw [List.map_append, hf, hd, h.now, List.map_map]
    congr 1
    simp [Function.comp_def]
  refine ⟨hS, ⟨rfl, rfl, rfl, ?_, ?_, ?_, ?_, hS.symm⟩⟩
  · intro e he
    simp only [CEp.next, CEp.newCache, List.mem_append] at he
    rcases he with he | he
    · unfold filterCache at he
      exact h.cacheTags e (List.mem_filter.mp he).1
    · rw [hd] at he
      obtain ⟨i, hi, rfl⟩ := List.mem_map.mp he
      refine ⟨rfl, ?_⟩
      obtain ⟨d, hd1, rfl⟩ := List.mem_map.mp (List.mem_filter.mp hi).1
      exact h.insDocs d hd1
  · intro e he; simp [CEp.next] at he
  · intro e he; simp [CEp.next] at he
  · simp only [CEp.next, hS]
    simp

theorem rel_interrupted (c : Crypto PK KS CT Rand) {D : List Index} {w : Str} {E : CEp Rand} {S P}
    (h : Rel c D w E S P) : Rel c D w (E.next E.cache) ⟨S.base, S.base⟩ ⟨[], [], 0⟩ := by
  refine ⟨rfl, rfl, rfl, h.cacheTags, ?_, ?_, ?_, h.base⟩
  · intro e he; simp [CEp.next] at he
  · intro e he; simp [CEp.next] at he
  · simp only [CEp.next, h.base]
    simp

theorem rel_insert (c : Crypto PK KS CT Rand) {D : List Index} {w : Str} {E : CEp Rand} {S P}
    (h : Rel c D w E S P) (i : Index) (r : Rand) (d : Bool) (hi : i ∈ D)
    (hadm : (!d || !P.removed.contains i) = true) :
    Rel c D w { E with ins := E.ins ++ [if d then some (i, r) else none] }
      ⟨if d then S.now ++ [i] else S.now, S.base⟩
      ⟨if d then P.inserted ++ [i] else P.inserted, P.removed, P.lostRemovals⟩ := by
  cases d with
  | false =>
    refine ⟨?_, h.removed, h.lost, h.cacheTags, ?_, h.remDocs, ?_, h.base⟩
    · simpa using h.inserted
    · simpa using h.insDocs
    · simpa using h.now
  | true =>
    have hni : (E.rem.filterMap id).contains i = false := by
      rw [h.removed] at hadm; simpa using hadm
    refine ⟨?_, h.removed, h.lost, h.cacheTags, ?_, h.remDocs, ?_, h.base⟩
    · simp [h.inserted]
    · intro e he
      simp only [if_true, List.filterMap_append, List.mem_append] at he
      rcases he with he | he
      · exact h.insDocs e he
      · simp at he; subst he; exact hi
    · simp only [if_true, List.filterMap_append, List.map_append, List.filter_append, h.now,
        List.append_assoc]
      congr 2
      simp only [List.filterMap_cons, id, List.filterMap_nil, List.map_cons, List.map_nil,
        List.filter_cons, List.filter_nil]
      have hni' : (E.rem.filterMap (fun x => x)).contains i = false := hni
      rw [hni']
      rfl

theorem rel_remove (c : Crypto PK KS CT Rand) {D : List Index} {w : Str} {E : CEp Rand} {S P}
    (h : Rel c D w E S P) (i : Index) (d : Bool) (hi : i ∈ D) :
    Rel c D w { E with rem := E.rem ++ [if d then some i else none] }
      ⟨if d then S.now.filter (· ≠ i) else S.now, S.base⟩
      ⟨P.inserted, if d then P.removed ++ [i] else P.removed,
        if d then P.lostRemovals else P.lostRemovals + 1⟩ := by
  cases d with
  | false =>
    refine ⟨h.inserted, ?_, ?_, h.cacheTags, h.insDocs, ?_, ?_, h.base⟩
    · simpa using h.removed
    · simp [h.lost]
    · simpa using h.remDocs
    · simpa using h.now
  | true =>
    refine ⟨h.inserted, ?_, ?_, h.cacheTags, h.insDocs, ?_, ?_, h.base⟩
    · simp [h.removed]
    · simp [h.lost]
    · intro e he
      simp only [if_true, List.filterMap_append, List.mem_append] at he
      rcases he with he | he
      · exact h.remDocs e he
      · simp at he; subst he; exact hi
    · simp only [if_true]
      rw [h.now, List.filter_append, List.filter_filter, List.filter_filter]
      congr 1 <;>
      · apply List.filter_congr
        intro x _
        rw [Bool.eq_iff_iff]
        simp [and_comm]

/-- Refinement for every admissible history. -/
theorem evRun_spec (c : Crypto PK KS CT Rand) (laws : PunctLaws c) (K : List Str) (D : List Index)
    (n : Nat) (hn : n + 1 < 2 ^ 32) (hni : Diana.NoCollision c.ins (bound K n))
    (hnd : Diana.NoCollision c.del (bound K n))
    (hkw : ∀ v ∈ K, ∀ w ∈ K, c.kwToken v = c.kwToken w → v = w)
    (hinj : ∀ w ∈ K, ∀ i ∈ D, ∀ j ∈ D, docTag c w i = docTag c w j → i = j)
    (evs : List (Ev Rand)) (hK : ∀ e ∈ evs, Spec.Ev.kw e ∈ K)
    (hD : ∀ e ∈ evs, ∀ i ∈ Spec.Ev.docs e, i ∈ D)
    (s : Sys KS CT) (E : Str → CEp Rand) (S : Spec.Store) (P : Str → Spec.Pending)
    (h : CInv c K n s E)
    (hb : ∀ w ∈ K, (E w).epoch + evs.length ≤ n ∧ (E w).ins.length + evs.length ≤ n ∧
      (E w).rem.length + evs.length ≤ n)
    (hrel : ∀ w ∈ K, Rel c D w (E w) (S w) (P w)) (hadm : Spec.admissible P evs = true) :
    ∃ s', evRun c s evs = .ok (s', Spec.run S evs) := by
  induction evs generalizing s E S P with
  | nil => exact ⟨s, rfl⟩
  | cons ev evs ih =>
    have hK' : ∀ e ∈ evs, Spec.Ev.kw e ∈ K := fun o ho => hK o (by simp [ho])
    have hD' : ∀ e ∈ evs, ∀ i ∈ Spec.Ev.docs e, i ∈ D := fun o ho => hD o (by simp [ho])
    have hep : ∀ v ∈ K, (E v).epoch ≤ n := fun v hv => by have := (hb v hv).1; omega
    have hb' : ∀ (w : Str) (e : CEp Rand), (∀ v ∈ K, v = w →
        e.epoch + evs.length ≤ n ∧ e.ins.length + evs.length ≤ n ∧ e.rem.length + evs.length ≤ n) →
        ∀ v ∈ K, (setC E w e v).epoch + evs.length ≤ n ∧ (setC E w e v).ins.length + evs.length ≤ n ∧
          (setC E w e v).rem.length + evs.length ≤ n := by
      intro w e he v hv
      by_cases hvw : v = w
      · subst hvw; rw [setC_self]; exact he v hv rfl
      · rw [setC_ne _ _ hvw]
        have := hb v hv
        simp only [List.length_cons] at this
        omega
    cases ev with
    | insert w i r d =>
      have hw : w ∈ K := hK (.insert w i r d) (by simp)
      have hi : i ∈ D := hD (.insert w i r d) (by simp) i (by simp [Spec.Ev.docs])
      have hbw := hb w hw
      simp only [List.length_cons] at hbw
      simp only [Spec.admissible, Bool.and_eq_true] at hadm
      have h1 := cinv_insert c (by omega) hni h hep hw (by omega) i r d
      obtain ⟨s', hs'⟩ := ih hK' hD' _ _
        (S.set w ⟨if d then (S w).now ++ [i] else (S w).now, (S w).base⟩) _ h1
        (hb' _ _ (fun v _ _ => by
          simp only [List.length_append, List.length_cons, List.length_nil]; omega))
        (by
          intro v hv
          by_cases hvw : v = w
          · subst hvw
            rw [setC_self]
            simp only [if_true, Spec.Store.set]
            exact rel_insert c (hrel v hv) i r d hi hadm.1
          · rw [setC_ne _ _ hvw]
            simp only [hvw, if_false, Spec.Store.set]
            exact hrel v hv) hadm.2
      refine ⟨s', ?_⟩
      simp only [evRun, evStep, hs', List.nil_append, Spec.run]
    | remove w i d =>
      have hw : w ∈ K := hK (.remove w i d) (by simp)
      have hi : i ∈ D := hD (.remove w i d) (by simp) i (by simp [Spec.Ev.docs])
      have hbw := hb w hw
      simp only [List.length_cons] at hbw
      simp only [Spec.admissible] at hadm
      have h1 := cinv_remove c (by omega) hnd h hep hw (by omega) i d
      obtain ⟨s', hs'⟩ := ih hK' hD' _ _
        (S.set w ⟨if d then (S w).now.filter (· ≠ i) else (S w).now, (S w).base⟩) _ h1
        (hb' _ _ (fun v _ _ => by
          simp only [List.length_append, List.length_cons, List.length_nil]; omega))
        (by
          intro v hv
          by_cases hvw : v = w
          · subst hvw
            rw [setC_self]
            simp only [if_true, Spec.Store.set]
            exact rel_remove c (hrel v hv) i d hi
          · rw [setC_ne _ _ hvw]
            simp only [hvw, if_false, Spec.Store.set]
            exact hrel v hv) hadm
      refine ⟨s', ?_⟩
      simp only [evRun, evStep, hs', List.nil_append, Spec.run]
    | search w f =>
      have hw : w ∈ K := hK (.search w f) (by simp)
      have hbw := hb w hw
      simp only [List.length_cons] at hbw
      simp only [Spec.admissible, Bool.and_eq_true] at hadm
      have hnext : ∀ cache, ∀ v ∈ K, v = w → ((E w).next cache).epoch + evs.length ≤ n ∧
          ((E w).next cache).ins.length + evs.length ≤ n ∧
          ((E w).next cache).rem.length + evs.length ≤ n := by
        intro cache v hv hvw
        simp only [CEp.next, List.length_nil]
        split <;> omega
      have hR : ∀ (e : CEp Rand) (d : Spec.Docs), Rel c D w e d ⟨[], [], 0⟩ →
          Spec.Fate.nothing f = false →
          ∀ v ∈ K, Rel c D v (setC E w e v) (S.set w d v)
            (if v = w ∧ Spec.Fate.nothing f = false then ⟨[], [], 0⟩ else P v) := by
        intro e d hr hf v hv
        by_cases hvw : v = w
        · subst hvw
          rw [setC_self]
          simp only [hf, and_self, if_true, Spec.Store.set]
          exact hr
        · rw [setC_ne _ _ hvw]
          simp only [hvw, false_and, if_false, Spec.Store.set]
          exact hrel v hv
      obtain ⟨srv, srv', s1, s2, s3, s4⟩ := cinv_search c hn hni hnd hkw h hep hw (by omega)
        (by omega) (by omega)
      obtain ⟨t1, t2, t3⟩ := cinv_interrupted c hn hni hnd hkw h hep hw (by omega)
        (by omega) (by omega)
      have hint := rel_interrupted c (hrel w hw)
      cases f with
      | completed =>
        obtain ⟨hS, hr⟩ := rel_search c laws (hinj w hw) (hrel w hw) (by simpa [Spec.Fate.answers] using hadm.1)
        obtain ⟨s', hs'⟩ := ih hK' hD' _ _ _ _ s3 (hb' _ _ (hnext _)) (hR _ _ hr rfl) hadm.2
        refine ⟨s', ?_⟩
        simp only [evRun, evStep, s1, hs', Spec.run, hS, List.singleton_append]
      | repeated =>
        obtain ⟨hS, hr⟩ := rel_search c laws (hinj w hw) (hrel w hw) (by simpa [Spec.Fate.answers] using hadm.1)
        obtain ⟨s', hs'⟩ := ih hK' hD' _ _ _ _ s4 (hb' _ _ (hnext _)) (hR _ _ hr rfl) hadm.2
        refine ⟨s', ?_⟩
        simp only [evRun, evStep, s1, s2, hs', Spec.run, hS, List.cons_append, List.nil_append]
      | clientStopped k =>
        cases k with
        | zero =>
          obtain ⟨s', hs'⟩ := ih hK' hD' s E S P h
            (fun v hv => by have := hb v hv; simp only [List.length_cons] at this; omega) hrel
            (by simpa [Spec.Fate.nothing] using hadm.2)
          refine ⟨s', ?_⟩
          simp only [evRun, evStep, Spec.run, List.nil_append]
          have : clientStopped c s.client w 0 = s.client := rfl
          rw [this, hs']
        | succ k =>
          obtain ⟨s', hs'⟩ := ih hK' hD' _ _ _ _ (t1 k) (hb' _ _ (hnext _)) (hR _ _ hint rfl) hadm.2
          refine ⟨s', ?_⟩
          simp only [evRun, evStep, hs', Spec.run, List.nil_append]
      | requestLost =>
        obtain ⟨s', hs'⟩ := ih hK' hD' _ _ _ _ t2 (hb' _ _ (hnext _)) (hR _ _ hint rfl) hadm.2
        refine ⟨s', ?_⟩
        simp only [evRun, evStep, hs', Spec.run, List.nil_append]
      | serverStopped k =>
        obtain ⟨srv2, u1, u2⟩ := t3 k
        obtain ⟨s', hs'⟩ := ih hK' hD' _ _ _ _ u2 (hb' _ _ (hnext _)) (hR _ _ hint rfl) hadm.2
        refine ⟨s', ?_⟩
        simp only [evRun, evStep, u1, hs', Spec.run, List.nil_append]

/-- No history makes the server fail. -/
theorem evRun_ok (c : Crypto PK KS CT Rand) (K : List Str)
    (n : Nat) (hn : n + 1 < 2 ^ 32) (hni : Diana.NoCollision c.ins (bound K n))
    (hnd : Diana.NoCollision c.del (bound K n))
    (hkw : ∀ v ∈ K, ∀ w ∈ K, c.kwToken v = c.kwToken w → v = w)
    (evs : List (Ev Rand)) (hK : ∀ e ∈ evs, Spec.Ev.kw e ∈ K)
    (s : Sys KS CT) (E : Str → CEp Rand) (h : CInv c K n s E)
    (hb : ∀ w ∈ K, (E w).epoch + evs.length ≤ n ∧ (E w).ins.length + evs.length ≤ n ∧
      (E w).rem.length + evs.length ≤ n) :
    ∃ s' outs, evRun c s evs = .ok (s', outs) := by
  induction evs generalizing s E with
  | nil => exact ⟨s, [], rfl⟩
  | cons ev evs ih =>
    have hK' : ∀ e ∈ evs, Spec.Ev.kw e ∈ K := fun o ho => hK o (by simp [ho])
    have hep : ∀ v ∈ K, (E v).epoch ≤ n := fun v hv => by have := (hb v hv).1; omega
    have hw : Spec.Ev.kw ev ∈ K := hK ev (by simp)
    have hbw := hb _ hw
    simp only [List.length_cons] at hbw
    have hb' : ∀ (w : Str) (e : CEp Rand), (e.epoch + evs.length ≤ n ∧
        e.ins.length + evs.length ≤ n ∧ e.rem.length + evs.length ≤ n) →
        ∀ v ∈ K, (setC E w e v).epoch + evs.length ≤ n ∧ (setC E w e v).ins.length + evs.length ≤ n ∧
          (setC E w e v).rem.length + evs.length ≤ n := by
      intro w e he v hv
      by_cases hvw : v = w
      · subst hvw; rw [setC_self]; exact he
      · rw [setC_ne _ _ hvw]
        have := hb v hv
        simp only [List.length_cons] at this
        omega
    suffices hstep : ∃ s1 out E1, evStep c s ev = .ok (s1, out) ∧ CInv c K n s1 E1 ∧
        ∀ v ∈ K, (E1 v).epoch + evs.length ≤ n ∧ (E1 v).ins.length + evs.length ≤ n ∧
          (E1 v).rem.length + evs.length ≤ n by
      obtain ⟨s1, out, E1, h1, h2, h3⟩ := hstep
      obtain ⟨s', outs, h4⟩ := ih hK' s1 E1 h2 h3
      exact ⟨s', out ++ outs, by simp only [evRun, h1, h4]⟩
    cases ev with
    | insert w i r d =>
      simp only [Spec.Ev.kw] at hbw hw
      exact ⟨_, _, _, rfl, cinv_insert c (by omega) hni h hep hw (by omega) i r d, hb' _ _ (by
          simp only [List.length_append, List.length_cons, List.length_nil]
          omega)⟩
    | remove w i d =>
      simp only [Spec.Ev.kw] at hbw hw
      exact ⟨_, _, _, rfl, cinv_remove c (by omega) hnd h hep hw (by omega) i d, hb' _ _ (by
          simp only [List.length_append, List.length_cons, List.length_nil]
          omega)⟩
    | search w f =>
      simp only [Spec.Ev.kw] at hbw hw
      have hnext : ∀ cache, ((E w).next cache).epoch + evs.length ≤ n ∧
          ((E w).next cache).ins.length + evs.length ≤ n ∧
          ((E w).next cache).rem.length + evs.length ≤ n := by
        intro cache
        simp only [CEp.next, List.length_nil]
        split <;> omega
      obtain ⟨srv, srv', s1, s2, s3, s4⟩ := cinv_search c hn hni hnd hkw h hep hw (by omega)
        (by omega) (by omega)
      obtain ⟨t1, t2, t3⟩ := cinv_interrupted c hn hni hnd hkw h hep hw (by omega)
        (by omega) (by omega)
      cases f with
      | completed =>
        refine ⟨_, [((E w).newCache c w).map (·.1)], _, ?_, s3, hb' _ _ (hnext _)⟩
        simp only [evStep, s1]
      | repeated =>
        refine ⟨_, [((E w).newCache c w).map (·.1), ((E w).newCache c w).map (·.1)], _, ?_, s4,
          hb' _ _ (hnext _)⟩
        simp only [evStep, s1, s2]
      | clientStopped k =>
        cases k with
        | zero =>
          refine ⟨s, _, E, rfl, h, fun v hv => ?_⟩
          have := hb v hv
          simp only [List.length_cons] at this
          omega
        | succ k => exact ⟨_, _, _, rfl, t1 k, hb' _ _ (hnext _)⟩
      | requestLost => exact ⟨_, _, _, rfl, t2, hb' _ _ (hnext _)⟩
      | serverStopped k =>
        obtain ⟨srv2, u1, u2⟩ := t3 k
        refine ⟨_, [], _, ?_, u2, hb' _ _ (hnext _)⟩
        simp only [evStep, u1]

/-- Without interruptions, what happens is what is wanted. -/
theorem run_wanted (evs : List (Ev Rand)) (S S' : Spec.Store)
    (h : ∀ w, (S w).now = (S' w).now) (hu : Spec.uninterrupted evs = true) :
    Spec.run S evs = Spec.wanted S' evs := by
  induction evs generalizing S S' with
  | nil => rfl
  | cons ev evs ih =>
    have hset : ∀ w (a b b' : List Index) v,
        (S.set w ⟨a, b⟩ v).now = (S'.set w ⟨a, b'⟩ v).now := by
      intro w a b b' v
      simp only [Spec.Store.set]
      split
      · rfl
      · exact h v
    cases ev with
    | insert w i r d =>
      simp only [Spec.run, Spec.wanted]
      rw [h w]
      exact ih _ _ (hset _ _ _ _) (by simpa [Spec.uninterrupted] using hu)
    | remove w i d =>
      simp only [Spec.run, Spec.wanted]
      rw [h w]
      exact ih _ _ (hset _ _ _ _) (by simpa [Spec.uninterrupted] using hu)
    | search w f =>
      have hset' : ∀ v, (S.set w ⟨(S w).now, (S w).now⟩ v).now = (S' v).now := by
        intro v
        simp only [Spec.Store.set]
        split
        · next e => subst e; exact h v
        · exact h v
      simp only [Spec.uninterrupted, Bool.and_eq_true] at hu
      cases f with
      | completed => simp only [Spec.run, Spec.wanted]; rw [h w, ← h w, ih _ _ hset' hu.2]
      | repeated => simp only [Spec.run, Spec.wanted]; rw [h w, ← h w, ih _ _ hset' hu.2]
      | clientStopped k =>
        cases k with
        | zero => simp only [Spec.run, Spec.wanted]; exact ih _ _ h hu.2
        | succ k => simp [Spec.Fate.answers, Spec.Fate.nothing] at hu
      | requestLost => simp [Spec.Fate.answers, Spec.Fate.nothing] at hu
      | serverStopped k => simp [Spec.Fate.answers, Spec.Fate.nothing] at hu

end Verif.Janus.Crash
