import Verif.Tethys.Scheme
import Verif.Tethys.StoreLemmas
import Verif.Pluto.Model

/-! # Helper lemmas: the encryption of the table -/

namespace Verif.Tethys

theorem finishSeparate_written {payload p : List UInt8} {written remaining w : Nat}
    (h : finishSeparate payload written remaining = .ok (p, w)) : w = remaining := by
  unfold finishSeparate at h
  by_cases hr : remaining = 0
  · rw [if_pos hr] at h
    cases h
    exact hr.symm
  · rw [if_neg hr] at h
    cases hw : writeAt payload written (List.replicate remaining 0) with
    | error f => rw [hw] at h; cases h
    | ok q => rw [hw] at h; cases h; rfl

theorem finish_encrypt (c : Cipher) (k : Vector UInt8 32) (payload : List UInt8) (v written : Nat) :
    (ValueEncoder.encrypt c k).finish payload v written (payload.length - written) =
      (ValueEncoder.separate.finish payload v written (payload.length - written)).map
        (fun x => (xorStream c k v x.1, x.2)) := by
  unfold ValueEncoder.finish
  cases h : finishSeparate payload written (payload.length - written) with
  | error f => rfl
  | ok x =>
    obtain ⟨p, w⟩ := x
    rw [finishSeparate_written h]
    rfl

theorem encodeBucket_encrypt (c : Cipher) (k : Vector UInt8 32) (page : Nat) (g : Graph)
    (data : List (CoreKey × List Index)) (v : Nat) :
    encodeBucket (.encrypt c k) page g data v = (encodeBucket .separate page g data v).map (xorStream c k v) := by
  unfold encodeBucket
  cases g.vertices[v]? with
  | none => rfl
  | some vx =>
    simp only
    cases encodeEdges g.edges data .incoming vx.inEdges (List.replicate page 255, 0) with
    | error f => rfl
    | ok st =>
      simp only
      cases encodeEdges g.edges data .outgoing vx.outEdges st with
      | error f => rfl
      | ok st =>
        simp only
        rw [finish_encrypt]
        cases ValueEncoder.separate.finish st.1 v st.2 (st.1.length - st.2) with
        | error f => rfl
        | ok x =>
          obtain ⟨p, w⟩ := x
          simp only [Except.map]
          rw [xorStream_length]
          by_cases hw : st.2 + w > p.length
          · rw [if_pos hw, if_pos hw]
          · rw [if_neg hw, if_neg hw]

theorem encodeBuckets_encrypt (c : Cipher) (k : Vector UInt8 32) (page : Nat) (g : Graph)
    (data : List (CoreKey × List Index)) (vs : List Nat) :
    encodeBuckets (.encrypt c k) page g data vs =
      (encodeBuckets .separate page g data vs).map (List.zipWith (xorStream c k) vs) := by
  induction vs with
  | nil => rfl
  | cons v vs ih =>
    unfold encodeBuckets
    rw [encodeBucket_encrypt, ih]
    cases encodeBucket .separate page g data v with
    | error f => rfl
    | ok p =>
      simp only [Except.map]
      cases encodeBuckets .separate page g data vs with
      | error f => rfl
      | ok ps => rfl

theorem build_encrypt (c : Cipher) (k : Vector UInt8 32) (b : Builder) (old : Option (List UInt8)) :
    b.build (.encrypt c k) old = (b.build .separate old).map
      (fun fs => ⟨List.zipWith (xorStream c k) (List.range b.size) fs.table, fs.stash⟩) := by
  unfold Builder.build
  by_cases hb : b.built = true
  · rw [if_pos hb, if_pos hb]; rfl
  · rw [if_neg hb, if_neg hb]
    cases b.alloc.allocate with
    | error f => rfl
    | ok a =>
      simp only
      rw [encodeBuckets_encrypt]
      cases encodeBuckets .separate b.page a.graph b.data (List.range b.size) with
      | error f => rfl
      | ok t =>
        simp only [Except.map]
        by_cases hs : a.stashed = []
        · rw [if_pos hs, if_pos hs]
        · rw [if_neg hs, if_neg hs]
          cases serializeStash a.graph.edges b.data (setOrder a.graph.edges a.stashed) with
          | error f => rfl
          | ok s => rfl

/-! ## Sizes -/

theorem writeAt_length {buf bs p : List UInt8} {off : Nat} (h : writeAt buf off bs = .ok p) : p.length = buf.length := by
  unfold writeAt at h
  by_cases hl : off + bs.length ≤ buf.length
  · rw [if_pos hl] at h
    cases h
    simp only [List.length_append, List.length_take, List.length_drop]
    omega
  · rw [if_neg hl] at h; cases h

theorem encodeEdges_length {edges : List Edge} {data : List (CoreKey × List Index)} {o : Orientation}
    (ps : List EdgePtr) : ∀ {st st' : List UInt8 × Nat}, encodeEdges edges data o ps st = .ok st' →
      st'.1.length = st.1.length := by
  induction ps with
  | nil => intro st st' h; cases h; rfl
  | cons p ps ih =>
    intro st st' h
    unfold encodeEdges at h
    cases he : edges[p.index]? with
    | none => rw [he] at h; cases h
    | some e =>
      rw [he] at h
      simp only at h
      by_cases hv : e.valueIndex = emptyIndex
      · rw [if_pos hv] at h; exact ih h
      · rw [if_neg hv] at h
        cases hd : data[e.valueIndex.toNat]? with
        | none => rw [hd] at h; cases h
        | some d =>
          rw [hd] at h
          simp only at h
          cases hc : encode d.1 d.2 (AssignInfo.of e o) with
          | error f => rw [hc] at h; cases h
          | ok bs =>
            rw [hc] at h
            simp only at h
            cases hw : writeAt st.1 st.2 bs with
            | error f => rw [hw] at h; cases h
            | ok q =>
              rw [hw] at h
              simp only at h
              by_cases ho : st.2 + bs.length > q.length
              · rw [if_pos ho] at h; cases h
              · rw [if_neg ho] at h
                rw [ih h]
                exact writeAt_length hw

theorem encodeBucket_length {page : Nat} {g : Graph} {data : List (CoreKey × List Index)} {v : Nat} {p : List UInt8}
    (h : encodeBucket .separate page g data v = .ok p) : p.length = page := by
  unfold encodeBucket at h
  cases hv : g.vertices[v]? with
  | none => rw [hv] at h; cases h
  | some vx =>
    rw [hv] at h
    simp only at h
    cases h1 : encodeEdges g.edges data .incoming vx.inEdges (List.replicate page 255, 0) with
    | error f => rw [h1] at h; cases h
    | ok st =>
      rw [h1] at h
      simp only at h
      cases h2 : encodeEdges g.edges data .outgoing vx.outEdges st with
      | error f => rw [h2] at h; cases h
      | ok st' =>
        rw [h2] at h
        simp only at h
        have hl : st'.1.length = page := by
          rw [encodeEdges_length _ h2, encodeEdges_length _ h1, List.length_replicate]
        cases h3 : ValueEncoder.separate.finish st'.1 v st'.2 (st'.1.length - st'.2) with
        | error f => rw [h3] at h; cases h
        | ok x =>
          obtain ⟨q, w⟩ := x
          rw [h3] at h
          simp only at h
          by_cases ho : st'.2 + w > q.length
          · rw [if_pos ho] at h; cases h
          · rw [if_neg ho] at h
            cases h
            unfold ValueEncoder.finish finishSeparate at h3
            simp only at h3
            by_cases hr : st'.1.length - st'.2 = 0
            · rw [if_pos hr] at h3
              cases h3
              exact hl
            · rw [if_neg hr] at h3
              cases hw : writeAt st'.1 st'.2 (List.replicate (st'.1.length - st'.2) 0) with
              | error f => rw [hw] at h3; cases h3
              | ok q' =>
                rw [hw] at h3
                cases h3
                rw [writeAt_length hw, hl]

theorem encodeBuckets_length {page : Nat} {g : Graph} {data : List (CoreKey × List Index)} (vs : List Nat) :
    ∀ {ps : List (List UInt8)}, encodeBuckets .separate page g data vs = .ok ps →
      ps.length = vs.length ∧ ∀ p ∈ ps, p.length = page := by
  induction vs with
  | nil => intro ps h; cases h; exact ⟨rfl, by simp⟩
  | cons v vs ih =>
    intro ps h
    unfold encodeBuckets at h
    cases h1 : encodeBucket .separate page g data v with
    | error f => rw [h1] at h; cases h
    | ok p =>
      rw [h1] at h
      simp only at h
      cases h2 : encodeBuckets .separate page g data vs with
      | error f => rw [h2] at h; cases h
      | ok qs =>
        rw [h2] at h
        cases h
        obtain ⟨h3, h4⟩ := ih h2
        refine ⟨by rw [List.length_cons, List.length_cons, h3], ?_⟩
        intro q hq
        rcases List.mem_cons.mp hq with rfl | hq
        · exact encodeBucket_length h1
        · exact h4 q hq

theorem build_length {b : Builder} {old : Option (List UInt8)} {fs : Files} (h : b.build .separate old = .ok fs) :
    fs.table.length = b.size ∧ ∀ p ∈ fs.table, p.length = b.page := by
  unfold Builder.build at h
  by_cases hb : b.built = true
  · rw [if_pos hb] at h; cases h
  · rw [if_neg hb] at h
    cases ha : b.alloc.allocate with
    | error f => rw [ha] at h; cases h
    | ok a =>
      rw [ha] at h
      simp only at h
      cases ht : encodeBuckets .separate b.page a.graph b.data (List.range b.size) with
      | error f => rw [ht] at h; cases h
      | ok t =>
        rw [ht] at h
        simp only at h
        have hl := encodeBuckets_length _ ht
        rw [List.length_range] at hl
        by_cases hs : a.stashed = []
        · rw [if_pos hs] at h; cases h; exact hl
        · rw [if_neg hs] at h
          cases hss : serializeStash a.graph.edges b.data (setOrder a.graph.edges a.stashed) with
          | error f => rw [hss] at h; cases h
          | ok s => rw [hss] at h; cases h; exact hl

/-! ## The keystream that gives the same table -/

/-- The byte at a position of a table, zero outside -/
def byteAt (t : List (List UInt8)) (v i : Nat) : UInt8 := ((t[v]?).bind (fun p => p[i]?)).getD 0

/-- The keystream `c`, for the key `k` only, with the difference of two tables added -/
def shift (k : Vector UInt8 32) (t1 t2 : List (List UInt8)) (c : Cipher) : Cipher := fun k' v i =>
  if k' = k then c k' v i ^^^ (byteAt t1 v i ^^^ byteAt t2 v i) else c k' v i

theorem shift_shift (k : Vector UInt8 32) (t1 t2 : List (List UInt8)) (c : Cipher) :
    shift k t1 t2 (shift k t1 t2 c) = c := by
  funext k' v i
  unfold shift
  by_cases hk : k' = k
  · rw [if_pos hk, if_pos hk, UInt8.xor_assoc, UInt8.xor_self, UInt8.xor_zero]
  · rw [if_neg hk, if_neg hk]

theorem shift_bijective (k : Vector UInt8 32) (t1 t2 : List (List UInt8)) : Function.Bijective (shift k t1 t2) :=
  Function.Involutive.bijective (shift_shift k t1 t2)

theorem byteAt_out {t : List (List UInt8)} {n page v i : Nat} (h1 : t.length = n) (h2 : ∀ p ∈ t, p.length = page)
    (h : n ≤ v ∨ page ≤ i) : byteAt t v i = 0 := by
  unfold byteAt
  cases hp : t[v]? with
  | none => rfl
  | some p =>
    have hv := (List.getElem?_eq_some_iff.mp hp).1
    have hl := h2 p (List.mem_of_getElem? hp)
    rw [Option.bind_some, List.getElem?_eq_none (by omega)]
    rfl

theorem zipWith_range {t : List (List UInt8)} {n : Nat} (h : t.length = n) (f : Nat → List UInt8 → List UInt8) (v : Nat) :
    (List.zipWith f (List.range n) t)[v]? = (t[v]?).map (f v) := by
  rw [List.getElem?_zipWith]
  rcases Nat.lt_or_ge v n with hv | hv
  · rw [List.getElem?_range hv]
    cases t[v]? <;> rfl
  · rw [List.getElem?_eq_none (l := t) (by omega)]
    cases (List.range n)[v]? <;> rfl

theorem xor_shift {k : Vector UInt8 32} {t1 t2 : List (List UInt8)} {n page : Nat} (c : Cipher)
    (h1 : t1.length = n) (h1' : ∀ p ∈ t1, p.length = page) (h2 : t2.length = n) (h2' : ∀ p ∈ t2, p.length = page) :
    List.zipWith (xorStream (shift k t1 t2 c) k) (List.range n) t1 = List.zipWith (xorStream c k) (List.range n) t2 := by
  apply List.ext_getElem?
  intro v
  rw [zipWith_range h1, zipWith_range h2]
  rcases Nat.lt_or_ge v n with hv | hv
  · have e1 : t1[v]? = some t1[v] := List.getElem?_eq_getElem (by omega)
    have e2 : t2[v]? = some t2[v] := List.getElem?_eq_getElem (by omega)
    rw [e1, e2, Option.map_some, Option.map_some]
    congr 1
    have l1 := h1' _ (List.mem_of_getElem? e1)
    have l2 := h2' _ (List.mem_of_getElem? e2)
    apply List.ext_getElem?
    intro i
    unfold xorStream
    rw [List.getElem?_mapIdx, List.getElem?_mapIdx]
    rcases Nat.lt_or_ge i page with hi | hi
    · have f1 : t1[v][i]? = some t1[v][i] := List.getElem?_eq_getElem (by omega)
      have f2 : t2[v][i]? = some t2[v][i] := List.getElem?_eq_getElem (by omega)
      rw [f1, f2, Option.map_some, Option.map_some]
      congr 1
      unfold shift byteAt
      rw [if_pos rfl, e1, e2, Option.bind_some, Option.bind_some, f1, f2, Option.getD_some, Option.getD_some]
      generalize t1[v][i] = a
      generalize t2[v][i] = b
      generalize c k v i = x
      rw [UInt8.xor_comm x, ← UInt8.xor_assoc, ← UInt8.xor_assoc, UInt8.xor_self, UInt8.zero_xor]
    · rw [List.getElem?_eq_none (by omega), List.getElem?_eq_none (by omega)]
      rfl
  · rw [List.getElem?_eq_none (by omega), List.getElem?_eq_none (by omega)]
    rfl

end Verif.Tethys
