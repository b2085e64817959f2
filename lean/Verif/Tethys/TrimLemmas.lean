import Verif.Tethys.Allocator
import Verif.Tethys.SumLemmas

/-! # Helper lemmas: step 5 of the allocation -/

namespace Verif.Tethys

/-- What the list of the edge `i` has in its second bucket (`b = true`) or in its first one -/
def val (es : List Edge) (b : Bool) (i : Nat) : Nat :=
  match es[i]? with
  | none => 0
  | some e => if e.valueIndex = emptyIndex then 0 else (e.flowAlong b).toNat

theorem setFlow_skel (e : Edge) (b : Bool) (x : UInt64) : (e.setFlow b x).skel = e.skel := by
  cases b <;> rfl

theorem set_skel {es : List Edge} {i : Nat} {e : Edge} (h : es[i]? = some e) (b : Bool) (x : UInt64) :
    (es.set i (e.setFlow b x)).map Edge.skel = es.map Edge.skel := by
  obtain ⟨hi, he⟩ := List.getElem?_eq_some_iff.mp h
  rw [List.map_set, setFlow_skel, ← he]
  apply List.ext_getElem?
  intro j
  rw [List.getElem?_set]
  split
  · rename_i hj; subst hj
    simp [hi]
  · rfl

theorem val_set {es : List Edge} {i : Nat} {e : Edge} (h : es[i]? = some e)
    (hv : e.valueIndex ≠ emptyIndex) (b : Bool) (x : UInt64) (b' : Bool) (j : Nat) :
    val (es.set i (e.setFlow b x)) b' j = if j = i ∧ b' = b then x.toNat else val es b' j := by
  have hi := (List.getElem?_eq_some_iff.mp h).1
  unfold val
  rw [List.getElem?_set]
  by_cases hj : i = j
  · subst hj
    simp only [if_true, hi, true_and, h]
    have hv' : (e.setFlow b x).valueIndex = e.valueIndex := by cases b <;> rfl
    rw [hv', if_neg hv]
    cases b <;> cases b' <;> simp [Edge.setFlow, Edge.flowAlong, hv]
  · rw [if_neg hj, if_neg (by rintro ⟨h, -⟩; exact hj h.symm)]

theorem sum_map_congr {ps : List EdgePtr} {f g : EdgePtr → Nat} (h : ∀ p ∈ ps, f p = g p) :
    (ps.map f).sum = (ps.map g).sum := by
  rw [List.map_congr_left h]

theorem trimScan_spec (page : UInt64) (b : Bool) (ps : List EdgePtr) (t : Trim)
    (hnd : (ps.map EdgePtr.index).Nodup) (hin : ∀ p ∈ ps, p.index < t.edges.length ∧ p.recip = false)
    (hload : t.load ≤ page)
    (hwrap : ∀ p ∈ ps, page.toNat + val t.edges b p.index < 2 ^ 64) :
    ∃ t', trimScan page b ps t = .ok t' ∧ t'.edges.map Edge.skel = t.edges.map Edge.skel ∧
      t'.load ≤ page ∧
      (∀ b' i, (b' ≠ b ∨ i ∉ ps.map EdgePtr.index) → val t'.edges b' i = val t.edges b' i) ∧
      (∀ b' i, val t'.edges b' i ≤ val t.edges b' i) ∧
      (ps.map (fun p => val t'.edges b p.index)).sum + t.load.toNat = t'.load.toNat ∧
      t'.load.toNat =
        min page.toNat (t.load.toNat + (ps.map (fun p => val t.edges b p.index)).sum) ∧
      (∀ p, p ∈ t'.stashed ↔ p ∈ t.stashed ∨
        (p ∈ ps ∧ val t'.edges b p.index < val t.edges b p.index)) := by
  induction ps generalizing t with
  | nil =>
    refine ⟨t, rfl, rfl, hload, fun _ _ _ => rfl, fun _ _ => le_rfl, by simp, ?_, by simp⟩
    have := UInt64.le_iff_toNat_le.mp hload
    simp; omega
  | cons p ps ih =>
    simp only [List.map_cons, List.nodup_cons] at hnd
    obtain ⟨hp, hpr⟩ := hin p (List.mem_cons_self ..)
    have he : t.edges[p.index]? = some t.edges[p.index] := List.getElem?_eq_getElem hp
    generalize t.edges[p.index] = e at he
    have hnotin : ∀ q ∈ ps, q.index ≠ p.index := fun q hq h =>
      hnd.1 (List.mem_map.mpr ⟨q, hq, h⟩)
    have hl := UInt64.le_iff_toNat_le.mp hload
    rw [trimScan, he]
    simp only
    by_cases hv : e.valueIndex = emptyIndex
    · rw [if_pos hv]
      have hval : ∀ b', val t.edges b' p.index = 0 := fun b' => by simp [val, he, hv]
      obtain ⟨t', h1, h2, h3, h4, h5, h6, h7, h8⟩ := ih t hnd.2
        (fun q hq => hin q (List.mem_cons_of_mem _ hq)) hload
        (fun q hq => hwrap q (List.mem_cons_of_mem _ hq))
      have hval' : val t'.edges b p.index = 0 := by
        rw [h4 b p.index (Or.inr hnd.1)]; exact hval b
      refine ⟨t', h1, h2, h3, ?_, h5, ?_, ?_, ?_⟩
      · intro b' i h
        apply h4
        rcases h with h | h
        · exact Or.inl h
        · exact Or.inr (fun h' => h (List.mem_cons_of_mem _ h'))
      · simp only [List.map_cons, List.sum_cons, hval']; omega
      · simp only [List.map_cons, List.sum_cons, hval b]; rw [h7]; simp
      · intro q
        rw [h8]
        constructor
        · rintro (h | ⟨h, h'⟩)
          · exact Or.inl h
          · exact Or.inr ⟨List.mem_cons_of_mem _ h, h'⟩
        · rintro (h | ⟨h, h'⟩)
          · exact Or.inl h
          · rcases List.mem_cons.mp h with rfl | h
            · rw [hval b, hval'] at h'; omega
            · exact Or.inr ⟨h, h'⟩
    · rw [if_neg hv]
      have hvale : val t.edges b p.index = (e.flowAlong b).toNat := by simp [val, he, hv]
      have hw := hwrap p (List.mem_cons_self ..)
      rw [hvale] at hw
      have hadd : (t.load + e.flowAlong b).toNat = t.load.toNat + (e.flowAlong b).toNat := by
        rw [UInt64.toNat_add, Nat.mod_eq_of_lt (by omega)]
      by_cases hov : t.load + e.flowAlong b > page
      · rw [if_pos hov]
        have hov' : page.toNat < t.load.toNat + (e.flowAlong b).toNat := by
          rw [← hadd]; exact UInt64.lt_iff_toNat_lt.mp hov
        have hsub : (page - t.load).toNat = page.toNat - t.load.toNat :=
          UInt64.toNat_sub_of_le _ _ hload
        have hvs := val_set he hv b (page - t.load)
        obtain ⟨t', h1, h2, h3, h4, h5, h6, h7, h8⟩ :=
          ih ⟨t.edges.set p.index (e.setFlow b (page - t.load)), page, p :: t.stashed⟩ hnd.2
          (fun q hq => by
            have := hin q (List.mem_cons_of_mem _ hq)
            simpa using this) (by simp)
          (fun q hq => by
            have := hwrap q (List.mem_cons_of_mem _ hq)
            simp only [hvs]
            rw [if_neg (by rintro ⟨h, -⟩; exact hnotin q hq h)]
            exact this)
        simp only [hvs] at h4 h5 h7 h8
        have hval' : val t'.edges b p.index = page.toNat - t.load.toNat := by
          rw [h4 b p.index (Or.inr hnd.1), if_pos ⟨rfl, rfl⟩, hsub]
        refine ⟨t', h1, h2.trans (set_skel he b _), h3, ?_, ?_, ?_, ?_, ?_⟩
        · intro b' i h
          have h' : b' ≠ b ∨ i ∉ ps.map EdgePtr.index := by
            rcases h with h | h
            · exact Or.inl h
            · exact Or.inr (fun h' => h (List.mem_cons_of_mem _ h'))
          rw [h4 b' i h', if_neg]
          rintro ⟨rfl, rfl⟩
          rcases h with h | h
          · exact h rfl
          · exact h (List.mem_cons_self ..)
        · intro b' i
          refine (h5 b' i).trans ?_
          split
          · rename_i h
            rw [h.1, h.2, hvale, hsub]; omega
          · exact le_rfl
        · simp only [List.map_cons, List.sum_cons, hval']
          have h6' : (ps.map (fun p => val t'.edges b p.index)).sum + page.toNat = t'.load.toNat := h6
          omega
        · have h3' := UInt64.le_iff_toNat_le.mp h3
          simp only [List.map_cons, List.sum_cons, hvale]
          omega
        · intro q
          rw [h8]
          constructor
          · rintro (h | ⟨h, h'⟩)
            · rcases List.mem_cons.mp h with rfl | h
              · exact Or.inr ⟨List.mem_cons_self .., by rw [hval', hvale]; omega⟩
              · exact Or.inl h
            · rw [if_neg (by rintro ⟨h2, -⟩; exact hnotin q h h2)] at h'
              exact Or.inr ⟨List.mem_cons_of_mem _ h, h'⟩
          · rintro (h | ⟨h, h'⟩)
            · exact Or.inl (List.mem_cons_of_mem _ h)
            · rcases List.mem_cons.mp h with rfl | h
              · exact Or.inl (List.mem_cons_self ..)
              · refine Or.inr ⟨h, ?_⟩
                rw [if_neg (by rintro ⟨h2, -⟩; exact hnotin q h h2)]
                exact h'
      · rw [if_neg hov]
        have hle : t.load.toNat + (e.flowAlong b).toNat ≤ page.toNat := by
          rw [← hadd]
          exact Nat.le_of_not_lt (fun h => hov (UInt64.lt_iff_toNat_lt.mpr h))
        obtain ⟨t', h1, h2, h3, h4, h5, h6, h7, h8⟩ :=
          ih { t with load := t.load + e.flowAlong b } hnd.2
          (fun q hq => hin q (List.mem_cons_of_mem _ hq))
          (UInt64.le_iff_toNat_le.mpr (by simp only [hadd]; exact hle))
          (fun q hq => hwrap q (List.mem_cons_of_mem _ hq))
        simp only [hadd] at h6 h7
        have hval' : val t'.edges b p.index = (e.flowAlong b).toNat := by
          rw [h4 b p.index (Or.inr hnd.1)]; exact hvale
        refine ⟨t', h1, h2, h3, ?_, h5, ?_, ?_, ?_⟩
        · intro b' i h
          apply h4
          rcases h with h | h
          · exact Or.inl h
          · exact Or.inr (fun h' => h (List.mem_cons_of_mem _ h'))
        · simp only [List.map_cons, List.sum_cons, hval']; omega
        · simp only [List.map_cons, List.sum_cons, hvale]; rw [h7]; congr 1; omega
        · intro q
          rw [h8]
          constructor
          · rintro (h | ⟨h, h'⟩)
            · exact Or.inl h
            · exact Or.inr ⟨List.mem_cons_of_mem _ h, h'⟩
          · rintro (h | ⟨h, h'⟩)
            · exact Or.inl h
            · rcases List.mem_cons.mp h with rfl | h
              · rw [hvale, hval'] at h'; omega
              · exact Or.inr ⟨h, h'⟩

theorem idxs_nodup (P : Edge → Bool) (es : List Edge) : ((idxs P es).map EdgePtr.index).Nodup := by
  unfold idxs
  rw [List.map_map]
  have h1 : ((es.zipIdx.filter (fun x => P x.1)).map (EdgePtr.index ∘ fun x => ⟨false, x.2⟩)) =
      ((es.zipIdx.filter (fun x => P x.1)).map Prod.snd) := rfl
  rw [h1]
  have h2 : ((es.zipIdx.filter (fun x => P x.1)).map Prod.snd).Sublist (es.zipIdx.map Prod.snd) :=
    List.Sublist.map _ List.filter_sublist
  apply h2.nodup
  rw [List.zipIdx_map_snd]
  exact List.nodup_range'

/-- Load of a bucket, in terms of the pointers of its vertex -/
def ptrLoad (es : List Edge) (v : Nat) : Nat :=
  ((idxs (stopsAt (.inner v)) es).map (fun p => val es true p.index)).sum +
    ((idxs (startsAt (.inner v)) es).map (fun p => val es false p.index)).sum

/-- The bucket of a slot -/
def slotAt (e : Edge) (b : Bool) : VertexPtr := if b then e.stop else e.start

theorem getElem?_skel {es es' : List Edge} (h : es'.map Edge.skel = es.map Edge.skel) {i : Nat}
    {e : Edge} (he : es[i]? = some e) : ∃ e', es'[i]? = some e' ∧ e'.skel = e.skel := by
  have : (es'.map Edge.skel)[i]? = some e.skel := by rw [h]; simp [he]
  rw [List.getElem?_map] at this
  cases he' : es'[i]? with
  | none => simp [he'] at this
  | some e' => rw [he'] at this; exact ⟨e', rfl, by simpa using this⟩

theorem ptrLoad_congr {es es' : List Edge} (h : es'.map Edge.skel = es.map Edge.skel) (v : Nat)
    (hv : ∀ i e b, es[i]? = some e → slotAt e b = .inner v → val es' b i = val es b i) :
    ptrLoad es' v = ptrLoad es v := by
  unfold ptrLoad
  rw [idxs_congr (stopsAt_skel _) h, idxs_congr (startsAt_skel _) h]
  congr 1
  · apply sum_map_congr
    intro p hp
    obtain ⟨-, e, he, hP⟩ := mem_idxs.mp hp
    exact hv _ e true he (by simpa [stopsAt, slotAt] using hP)
  · apply sum_map_congr
    intro p hp
    obtain ⟨-, e, he, hP⟩ := mem_idxs.mp hp
    exact hv _ e false he (by simpa [startsAt, slotAt] using hP)

theorem trimVertices_spec (page : UInt64) (vs : List Vertex) (k : Nat) (es : List Edge)
    (st : List EdgePtr)
    (hin : ∀ j v, vs[j]? = some v → v.inEdges = idxs (stopsAt (.inner (k + j))) es)
    (hout : ∀ j v, vs[j]? = some v → v.outEdges = idxs (startsAt (.inner (k + j))) es)
    (hwrap : ∀ b i, page.toNat + val es b i < 2 ^ 64) :
    ∃ es' st', trimVertices page vs es st = .ok (es', st') ∧
      es'.map Edge.skel = es.map Edge.skel ∧
      (∀ b i, val es' b i ≤ val es b i) ∧
      (∀ i e b, es[i]? = some e → (∀ j < vs.length, slotAt e b ≠ .inner (k + j)) →
        val es' b i = val es b i) ∧
      (∀ j < vs.length, ptrLoad es' (k + j) = min page.toNat (ptrLoad es (k + j))) ∧
      (∀ p, p ∈ st' ↔ p ∈ st ∨ (p.recip = false ∧ ∃ b, val es' b p.index < val es b p.index)) := by
  induction vs generalizing k es st with
  | nil =>
    exact ⟨es, st, rfl, rfl, fun _ _ => le_rfl, fun _ _ _ _ _ => rfl, by simp, by simp⟩
  | cons v vs ih =>
    have hin0 := hin 0 v rfl
    have hout0 := hout 0 v rfl
    simp only [Nat.add_zero] at hin0 hout0
    have hmem : ∀ (P : Edge → Bool) p, p ∈ idxs P es → p.index < es.length ∧ p.recip = false := by
      intro P p hp
      obtain ⟨h1, e, h2, -⟩ := mem_idxs.mp hp
      exact ⟨(List.getElem?_eq_some_iff.mp h2).1, h1⟩
    obtain ⟨t1, a1, a2, a3, a4, a5, a6, a7, a8⟩ := trimScan_spec page true v.inEdges ⟨es, 0, st⟩
      (by rw [hin0]; exact idxs_nodup _ _) (by rw [hin0]; exact hmem _) (by simp)
      (fun p _ => hwrap true p.index)
    have hlen1 : t1.edges.length = es.length := by
      have := congrArg List.length a2; simpa using this
    obtain ⟨t2, b1, b2, b3, b4, b5, b6, b7, b8⟩ := trimScan_spec page false v.outEdges t1
      (by rw [hout0]; exact idxs_nodup _ _) (by rw [hout0, hlen1]; exact hmem _) a3
      (fun p _ => lt_of_le_of_lt (Nat.add_le_add_left (a5 false p.index) _) (hwrap false p.index))
    have hsk : t2.edges.map Edge.skel = es.map Edge.skel := b2.trans a2
    -- what the processing of this vertex changed
    have hchg : ∀ b i, val t2.edges b i ≤ val es b i := fun b i => (b5 b i).trans (a5 b i)
    have huna : ∀ i e b, es[i]? = some e → slotAt e b ≠ .inner k → val t2.edges b i = val es b i := by
      intro i e b he hs
      rw [b4 b i, a4 b i]
      · cases b with
        | false => exact Or.inl (by simp)
        | true =>
          refine Or.inr ?_
          rw [hin0]
          intro h
          obtain ⟨p, hp, rfl⟩ := List.mem_map.mp h
          obtain ⟨-, e', he', hP⟩ := mem_idxs.mp hp
          rw [he] at he'; cases he'
          exact hs (by simpa [slotAt, stopsAt] using hP)
      · cases b with
        | true => exact Or.inl (by simp)
        | false =>
          refine Or.inr ?_
          rw [hout0]
          intro h
          obtain ⟨p, hp, rfl⟩ := List.mem_map.mp h
          obtain ⟨-, e', he', hP⟩ := mem_idxs.mp hp
          rw [he] at he'; cases he'
          exact hs (by simpa [slotAt, startsAt] using hP)
    have hloadk : ptrLoad t2.edges k = min page.toNat (ptrLoad es k) := by
      unfold ptrLoad
      rw [idxs_congr (stopsAt_skel _) hsk, idxs_congr (startsAt_skel _) hsk, ← hin0, ← hout0]
      have e1 : (v.inEdges.map (fun p => val t2.edges true p.index)).sum =
          (v.inEdges.map (fun p => val t1.edges true p.index)).sum :=
        sum_map_congr (fun p _ => b4 true p.index (Or.inl (by simp)))
      have e2 : (v.outEdges.map (fun p => val t1.edges false p.index)).sum =
          (v.outEdges.map (fun p => val es false p.index)).sum :=
        sum_map_congr (fun p _ => a4 false p.index (Or.inl (by simp)))
      rw [e1]
      rw [e2] at b7
      simp only [UInt64.toNat_zero, Nat.add_zero, Nat.zero_add] at a6 a7
      omega
    obtain ⟨es', st', c1, c2, c3, c4, c5, c6⟩ := ih (k + 1) t2.edges t2.stashed
      (by
        intro j w hw
        rw [hin (j + 1) w (by simpa using hw), idxs_congr (stopsAt_skel _) hsk,
          show k + 1 + j = k + (j + 1) by omega])
      (by
        intro j w hw
        rw [hout (j + 1) w (by simpa using hw), idxs_congr (startsAt_skel _) hsk,
          show k + 1 + j = k + (j + 1) by omega])
      (fun b i => lt_of_le_of_lt (Nat.add_le_add_left (hchg b i) _) (hwrap b i))
    refine ⟨es', st', ?_, c2.trans hsk, fun b i => (c3 b i).trans (hchg b i), ?_, ?_, ?_⟩
    · rw [trimVertices, a1]
      simp only
      rw [b1]
      exact c1
    · intro i e b he hs
      obtain ⟨e', he', hsk'⟩ := getElem?_skel hsk he
      have hslot : slotAt e' b = slotAt e b := by
        simp only [Edge.skel, Prod.mk.injEq] at hsk'
        cases b <;> simp [slotAt, hsk']
      rw [c4 i e' b he', huna i e b he]
      · have := hs 0 (by simp); simpa using this
      · intro j hj
        rw [hslot]
        have := hs (j + 1) (by simpa using hj)
        rwa [show k + 1 + j = k + (j + 1) by omega]
    · intro j hj
      cases j with
      | zero =>
        simp only [Nat.add_zero]
        rw [← hloadk]
        apply ptrLoad_congr c2
        intro i e b he hs
        apply c4 i e b he
        intro j _ h
        rw [hs] at h
        simp only [VertexPtr.inner.injEq] at h
        omega
      | succ j =>
        rw [show k + (j + 1) = k + 1 + j by omega, c5 j (by simpa using hj)]
        congr 1
        apply ptrLoad_congr hsk
        intro i e b he hs
        apply huna i e b he
        rw [hs]
        simp only [ne_eq, VertexPtr.inner.injEq]
        omega
    · intro p
      rw [c6, b8, a8]
      constructor
      · rintro (((h | ⟨h, h'⟩) | ⟨h, h'⟩) | ⟨h, b, h'⟩)
        · exact Or.inl h
        · rw [hin0] at h
          refine Or.inr ⟨(mem_idxs.mp h).1, true, ?_⟩
          exact lt_of_le_of_lt ((c3 true _).trans (b5 true _)) h'
        · rw [hout0] at h
          refine Or.inr ⟨(mem_idxs.mp h).1, false, ?_⟩
          exact lt_of_lt_of_le (lt_of_le_of_lt (c3 false _) h') (a5 false _)
        · exact Or.inr ⟨h, b, lt_of_lt_of_le h' (hchg b _)⟩
      · rintro (h | ⟨h, b, h'⟩)
        · exact Or.inl (Or.inl (Or.inl h))
        · by_cases h1 : val es' b p.index < val t2.edges b p.index
          · exact Or.inr ⟨h, b, h1⟩
          · have h2 : val t2.edges b p.index < val es b p.index :=
              lt_of_le_of_lt (Nat.le_of_not_lt h1) h'
            left
            have hp : ∀ ps : List EdgePtr, (∀ q ∈ ps, q.recip = false) →
                p.index ∈ ps.map EdgePtr.index → p ∈ ps := by
              intro ps hq hm
              obtain ⟨q, hq1, hq2⟩ := List.mem_map.mp hm
              have : q = p := by
                have := hq q hq1
                cases q; cases p; simp_all
              exact this ▸ hq1
            cases b with
            | true =>
              left; right
              rw [b4 true p.index (Or.inl (by simp))] at h2
              refine ⟨?_, h2⟩
              by_contra hc
              rw [a4 true p.index (Or.inr (fun hm => hc (hp _ (by
                rw [hin0]; exact fun q hq => (mem_idxs.mp hq).1) hm)))] at h2
              exact lt_irrefl _ h2
            | false =>
              right
              have h3 : val t1.edges false p.index = val es false p.index :=
                a4 false p.index (Or.inl (by simp))
              rw [← h3] at h2
              refine ⟨?_, h2⟩
              by_contra hc
              rw [b4 false p.index (Or.inr (fun hm => hc (hp _ (by
                rw [hout0]; exact fun q hq => (mem_idxs.mp hq).1) hm)))] at h2
              exact lt_irrefl _ h2

end Verif.Tethys
