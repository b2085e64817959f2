import Verif.Janus.Lemmas

/-! # From the epochs of Janus to the abstract multimap -/

set_option linter.unusedSectionVars false

namespace Verif.Janus

open Verif

variable {PK KS CT Rand : Type}

/-- Relation between the epoch state of a keyword, its abstract list and its pending operations. -/
structure Rel (c : Crypto PK KS CT Rand) (D : List Index) (w : Str) (E : Ep Rand) (S : List Index)
    (P : Spec.Pending) : Prop where
  inserted : P.inserted = E.ins.map (·.1)
  removed : P.removed = E.rem
  cacheTags : ∀ e ∈ E.cache, e.2 = docTag c w e.1 ∧ e.1 ∈ D
  insDocs : ∀ e ∈ E.ins, e.1 ∈ D
  remDocs : ∀ i ∈ E.rem, i ∈ D
  store : S = (E.cache.map (·.1)).filter (fun i => !E.rem.contains i) ++
    (E.ins.map (·.1)).filter (fun i => !E.rem.contains i)

theorem tag_mem (c : Crypto PK KS CT Rand) {D : List Index} {w : Str}
    (hinj : ∀ i ∈ D, ∀ j ∈ D, docTag c w i = docTag c w j → i = j) (l : List Index)
    (hl : ∀ i ∈ l, i ∈ D) (i : Index) (hi : i ∈ D) :
    (l.map (docTag c w)).contains (docTag c w i) = l.contains i := by
  rw [Bool.eq_iff_iff, List.contains_iff_mem, List.contains_iff_mem, List.mem_map]
  constructor
  · rintro ⟨j, hj, he⟩
    rw [← hinj j (hl j hj) i hi he]; exact hj
  · intro h; exact ⟨i, h, rfl⟩

theorem filterCache_fst (c : Crypto PK KS CT Rand) {D : List Index} {w : Str}
    (hinj : ∀ i ∈ D, ∀ j ∈ D, docTag c w i = docTag c w j → i = j) (l : List Index)
    (hl : ∀ i ∈ l, i ∈ D) (cache : List (Index × Tag))
    (hc : ∀ e ∈ cache, e.2 = docTag c w e.1 ∧ e.1 ∈ D) :
    (filterCache (l.map (docTag c w)) cache).map (·.1) =
      (cache.map (·.1)).filter (fun i => !l.contains i) := by
  unfold filterCache
  induction cache with
  | nil => rfl
  | cons e cache ih =>
    have he := hc e (by simp)
    have ih' := ih (fun e' h' => hc e' (by simp [h']))
    rw [List.filter_cons, List.map_cons, List.filter_cons, he.1, tag_mem c hinj l hl e.1 he.2]
    split
    · rw [List.map_cons, ih']
    · exact ih'

theorem searchKey_eq (c : Crypto PK KS CT Rand) (w : Str) (e : Nat) (rem : List Index)
    (h : rem.length ≤ 1) :
    searchKey c w e rem = properShares c (c.derive (metaNat w e)) (rem.map (docTag c w)) := by
  match rem with
  | [] => rfl
  | [i] => rfl
  | _ :: _ :: _ => simp at h

theorem decrypt_fresh (c : Crypto PK KS CT Rand) (laws : PunctLaws c) {D : List Index} {w : Str}
    (hinj : ∀ i ∈ D, ∀ j ∈ D, docTag c w i = docTag c w j → i = j) (e : Nat) (rem : List Index)
    (hrem : ∀ i ∈ rem, i ∈ D) (ins : List (Index × Rand)) (hins : ∀ d ∈ ins, d.1 ∈ D)
    (h1 : ins = [] ∨ rem.length ≤ 1) :
    decryptAll c (searchKey c w e rem) (storedCts c w e ins) =
      ((ins.map (·.1)).filter (fun i => !rem.contains i)).map (fun i => (i, docTag c w i)) := by
  rcases h1 with rfl | h1
  · rfl
  · rw [searchKey_eq c w e rem h1]
    unfold decryptAll storedCts
    induction ins with
    | nil => rfl
    | cons d ins ih =>
      have hd := hins d (by simp)
      have ih' := ih (fun e' h' => hins e' (by simp [h']))
      rw [List.map_cons, List.filterMap_cons, List.map_cons, List.filter_cons, c.ctTag_encrypt, ih']
      by_cases hm : rem.contains d.1 = true
      · have ht : docTag c w d.1 ∈ rem.map (docTag c w) := by
          rw [← List.contains_iff_mem, tag_mem c hinj rem hrem _ hd]; exact hm
        rw [laws.refuses _ _ _ _ _ (by simp; omega) ht]
        simp only [Option.map_none, hm, Bool.not_true, Bool.false_eq_true, if_false]
      · have ht : docTag c w d.1 ∉ rem.map (docTag c w) := by
          rw [← List.contains_iff_mem, tag_mem c hinj rem hrem _ hd]; exact hm
        rw [laws.decrypts _ _ _ _ _ (by simp; omega) ht]
        rw [Bool.not_eq_true] at hm
        simp only [Option.map_some, hm, Bool.not_false, if_true, List.map_cons]

theorem rel_search (c : Crypto PK KS CT Rand) (laws : PunctLaws c) {D : List Index} {w : Str}
    (hinj : ∀ i ∈ D, ∀ j ∈ D, docTag c w i = docTag c w j → i = j) {E : Ep Rand} {S P}
    (h : Rel c D w E S P)
    (hadm : (P.inserted.isEmpty || decide (P.removed.length ≤ 1)) = true) :
    (E.newCache c w).map (·.1) = S ∧ Rel c D w (E.search c w) S ⟨[], []⟩ := by
  have h1 : E.ins = [] ∨ E.rem.length ≤ 1 := by
    rw [Bool.or_eq_true, decide_eq_true_iff, h.inserted, h.removed] at hadm
    rcases hadm with h' | h'
    · left; simpa using h'
    · exact Or.inr h'
  have hf := filterCache_fst c hinj E.rem h.remDocs E.cache h.cacheTags
  have hd := decrypt_fresh c laws hinj E.epoch E.rem h.remDocs E.ins h.insDocs h1
  have hS : (E.newCache c w).map (·.1) = S := by
    unfold Ep.newCache
    rw [List.map_append, hf, hd, h.store, List.map_map]
    congr 1
    simp [Function.comp_def]
  refine ⟨hS, ⟨rfl, rfl, ?_, ?_, ?_, ?_⟩⟩
  · intro e he
    simp only [Ep.search, Ep.newCache, List.mem_append] at he
    rcases he with he | he
    · unfold filterCache at he
      exact h.cacheTags e (List.mem_filter.mp he).1
    · rw [hd] at he
      obtain ⟨i, hi, rfl⟩ := List.mem_map.mp he
      refine ⟨rfl, ?_⟩
      obtain ⟨d, hd1, rfl⟩ := List.mem_map.mp (List.mem_filter.mp hi).1
      exact h.insDocs d hd1
  · intro e he; simp [Ep.search] at he
  · intro e he; simp [Ep.search] at he
  · simp only [Ep.search, hS]
    simp

/-- Refinement of the epochs to the abstract multimap. -/
theorem epRun_spec (c : Crypto PK KS CT Rand) (laws : PunctLaws c) (K : List Str) (D : Str → List Index)
    (hinj : ∀ w ∈ K, ∀ i ∈ D w, ∀ j ∈ D w, docTag c w i = docTag c w j → i = j)
    (ops : List (Op Rand)) (hK : ∀ op ∈ ops, Spec.Op.kw op ∈ K)
    (hD : ∀ op ∈ ops, ∀ i ∈ Spec.Op.docs op, i ∈ D (Spec.Op.kw op))
    (E : Str → Ep Rand) (S : Spec.Store) (P : Str → Spec.Pending)
    (h : ∀ w ∈ K, Rel c (D w) w (E w) (S w) (P w)) (hadm : Spec.admissible P ops = true) :
    (epRun c E ops).2 = Spec.run S ops := by
  induction ops generalizing E S P with
  | nil => rfl
  | cons op ops ih =>
    have hK' : ∀ op ∈ ops, Spec.Op.kw op ∈ K := fun o ho => hK o (by simp [ho])
    have hD' : ∀ op ∈ ops, ∀ i ∈ Spec.Op.docs op, i ∈ D (Spec.Op.kw op) := fun o ho => hD o (by simp [ho])
    cases op with
    | insert w i r =>
      have hi : i ∈ D w := hD (.insert w i r) (by simp) i (by simp [Spec.Op.docs])
      simp only [Spec.admissible, Bool.and_eq_true] at hadm
      simp only [epRun, Spec.run]
      refine ih hK' hD' _ _ _ ?_ hadm.2
      intro v hv
      by_cases hvw : v = w
      · subst hvw
        have hw := h v hv
        rw [setEp_self]
        simp only [if_true, Spec.Store.set]
        have hni : (E v).rem.contains i = false := by
          have := hadm.1; rw [hw.removed] at this; simpa using this
        refine ⟨?_, hw.removed, hw.cacheTags, ?_, hw.remDocs, ?_⟩
        · simp [hw.inserted]
        · intro e he
          rcases List.mem_append.mp he with he | he
          · exact hw.insDocs e he
          · simp at he; subst he; exact hi
        · rw [hw.store, List.map_append, List.filter_append, List.append_assoc]
          congr 2
          simp only [List.map_cons, List.map_nil, List.filter_cons, List.filter_nil, hni]
          rfl
      · rw [setEp_ne _ _ hvw]
        simp only [hvw, if_false, Spec.Store.set]
        exact h v hv
    | remove w i =>
      have hi : i ∈ D w := hD (.remove w i) (by simp) i (by simp [Spec.Op.docs])
      simp only [Spec.admissible] at hadm
      simp only [epRun, Spec.run]
      refine ih hK' hD' _ _ _ ?_ hadm
      intro v hv
      by_cases hvw : v = w
      · subst hvw
        have hw := h v hv
        rw [setEp_self]
        simp only [if_true, Spec.Store.set]
        refine ⟨hw.inserted, ?_, hw.cacheTags, hw.insDocs, ?_, ?_⟩
        · simp [hw.removed]
        · intro e he
          rcases List.mem_append.mp he with he | he
          · exact hw.remDocs e he
          · simp at he; subst he; exact hi
        · rw [hw.store, List.filter_append, List.filter_filter, List.filter_filter]
          congr 1 <;>
          · apply List.filter_congr
            intro x _
            rw [Bool.eq_iff_iff]
            simp [and_comm]
      · rw [setEp_ne _ _ hvw]
        simp only [hvw, if_false, Spec.Store.set]
        exact h v hv
    | search w =>
      have hw : w ∈ K := hK (.search w) (by simp)
      simp only [Spec.admissible, Bool.and_eq_true] at hadm
      obtain ⟨hS, hR⟩ := rel_search c laws (hinj w hw) (h w hw) hadm.1
      simp only [epRun, Spec.run, hS]
      congr 1
      refine ih hK' hD' _ _ _ ?_ hadm.2
      intro v hv
      by_cases hvw : v = w
      · subst hvw
        rw [setEp_self]
        simp only [if_true]
        exact hR
      · rw [setEp_ne _ _ hvw]
        simp only [hvw, if_false]
        exact h v hv

end Verif.Janus
