import Verif.Tethys.StoreLemmas

/-! # Helper lemmas: the files of a store in terms of the inserted lists -/

namespace Verif.Tethys

open Spec

/-- The edge of an inserted list after the allocation -/
structure EdgeFor (n : Nat) (hash : CoreKey → UInt64 × UInt64) (data : List (CoreKey × List Index))
    (x : CoreKey × List Index) (e : Edge) : Prop where
  ne : e.valueIndex ≠ emptyIndex
  get : data[e.valueIndex.toNat]? = some x
  cap : e.capacity.toNat = x.2.length + 6
  start : e.start = .inner (bucket0 n hash x.1)
  stop : e.stop = .inner (bucket1 n hash x.1)
  split : e.flow.toNat + e.recFlow.toNat ≤ x.2.length + 6

def mkPlaced (x : CoreKey × List Index) (e : Edge) : Placed := ⟨x.1, x.2, e.flow.toNat, e.recFlow.toNat⟩

theorem edgeFor_of_skel {n : Nat} {hash} {data : List (CoreKey × List Index)}
    (A : List ((CoreKey × List Index) × Nat)) (es : List Edge)
    (hA : ∀ y ∈ A, data[y.2]? = some y.1 ∧ y.2 < 2 ^ 64 - 1 ∧ y.1.2.length + 6 < 2 ^ 64)
    (hsk : es.map Edge.skel = ((A.map (infoOf n hash)).map listOp).map BuildOp.edgeOf)
    (hsp : ∀ x ∈ ((A.map (infoOf n hash)).map itemOf).zip (es.map partOf), x.2.1 + x.2.2 ≤ x.1.len) :
    List.Forall₂ (EdgeFor n hash data) (A.map Prod.fst) es := by
  induction A generalizing es with
  | nil => cases es with
    | nil => exact .nil
    | cons => simp at hsk
  | cons y A ih => cases es with
    | nil => simp at hsk
    | cons e es =>
      simp only [List.map_cons, List.cons.injEq] at hsk
      obtain ⟨h1, h2, h3⟩ := hA y (List.mem_cons_self ..)
      have hsp0 := hsp (itemOf (infoOf n hash y), partOf e) (by simp)
      refine .cons ?_ (ih es (fun y hy => hA y (List.mem_cons_of_mem _ hy)) hsk.2 (fun x hx => hsp x (by
        simp only [List.map_cons, List.zip_cons_cons, List.mem_cons]
        exact Or.inr hx)))
      have hs := hsk.1
      simp only [Edge.skel, listOp, BuildOp.edgeOf, Prod.mk.injEq] at hs
      obtain ⟨s1, s2, s3, s4⟩ := hs
      have hlen := infoOf_len (n := n) (hash := hash) (x := y) h3
      have hvi : e.valueIndex.toNat = y.2 := by
        rw [s1]; simp only [infoOf]
        rw [UInt64.toNat_ofNat', Nat.mod_eq_of_lt (by omega)]
      refine ⟨?_, ?_, ?_, s3, s4, ?_⟩
      · rw [s1]; exact ofNat_ne_empty h2
      · rw [hvi]; exact h1
      · rw [s2]; exact hlen
      · simp only [itemOf, partOf] at hsp0
        rw [hlen] at hsp0
        exact hsp0

/-- The part of a placed list encoded in its second bucket -/
def Placed.chunk1 (r : Placed) : List (CoreKey × List Index) :=
  if r.a1 ≤ 3 then [] else [(r.key, r.vals.take r.k1)]

/-- The part of a placed list encoded in its first bucket -/
def Placed.chunk0 (r : Placed) : List (CoreKey × List Index) :=
  if r.a0 ≤ 3 then [] else [(r.key, r.vals.drop (r.vals.length - r.k0))]

theorem EdgeFor.chunk_in {n hash data x e} (h : EdgeFor n hash data x e) :
    chunk data .incoming e = (mkPlaced x e).chunk1 := by
  unfold chunk
  rw [if_neg h.ne, h.get]
  rfl

theorem EdgeFor.chunk_out {n hash data x e} (h : EdgeFor n hash data x e) :
    chunk data .outgoing e = (mkPlaced x e).chunk0 := by
  unfold chunk
  rw [if_neg h.ne, h.get]
  rfl

theorem EdgeFor.ok {n hash data x e} (h : EdgeFor n hash data x e) : EdgeOk data e :=
  fun _ => ⟨x, h.get, h.cap⟩

theorem Placed.k_le {r : Placed} (h : r.a0 + r.a1 ≤ r.vals.length + 6) :
    r.k0 + r.k1 ≤ r.vals.length := by
  unfold Placed.k0 Placed.k1 fit
  omega

theorem Placed.mid_length {r : Placed} (h : r.a0 + r.a1 ≤ r.vals.length + 6) :
    r.mid.length = r.vals.length - r.k0 - r.k1 := by
  have := r.k_le h
  unfold Placed.mid
  rw [List.length_drop, List.length_take]
  omega

theorem fit_toNat (a c : UInt64) (len : Nat) (hc : c.toNat = len + 6) :
    (stdMin (if a ≤ 3 then 0 else a - 3) (c - 6)).toNat = fit a.toNat len := by
  rw [stdMin_toNat, sub6 hc]
  unfold fit
  by_cases h : a ≤ 3
  · rw [if_pos h]
    have := (le3 a).mp h
    show min 0 _ = _
    omega
  · rw [if_neg h, sub3 h]

theorem serializeKV_spec (x : CoreKey × List Index) (i : AssignInfo)
    (hcap : i.listLength.toNat = x.2.length + 6) (r : Placed)
    (hr : r = ⟨x.1, x.2, i.dual.toNat, i.assigned.toNat⟩) (hsp : r.a0 + r.a1 ≤ r.vals.length + 6) :
    serializeKV x.1 x.2 i = .ok r.stashBytes := by
  have hk := r.k_le hsp
  have hm := r.mid_length hsp
  have hlt : x.2.length + 6 < 2 ^ 64 := by rw [← hcap]; exact i.listLength.toNat_lt
  unfold serializeKV
  have f1 : (stdMin (if i.assigned ≤ 3 then 0 else i.assigned - 3) (i.listLength - 6)).toNat =
      r.k1 := by rw [hr]; exact fit_toNat _ _ _ hcap
  have f0 : (stdMin (if i.dual ≤ 3 then 0 else i.dual - 3) (i.listLength - 6)).toNat =
      r.k0 := by rw [hr]; exact fit_toNat _ _ _ hcap
  simp only
  generalize stdMin (if i.assigned ≤ 3 then 0 else i.assigned - 3) (i.listLength - 6) = e1 at f1 ⊢
  generalize stdMin (if i.dual ≤ 3 then 0 else i.dual - 3) (i.listLength - 6) = e2 at f0 ⊢
  have hv : r.vals = x.2 := by rw [hr]
  have hkey : r.key = x.1 := by rw [hr]
  rw [hv] at hk hm
  have d1 : (i.listLength - 6 - e1).toNat = x.2.length - r.k1 := by
    rw [UInt64.toNat_sub_of_le _ _ (by rw [UInt64.le_iff_toNat_le, sub6 hcap]; omega), sub6 hcap, f1]
  have d2 : (i.listLength - 6 - e1 - e2).toNat = r.mid.length := by
    rw [UInt64.toNat_sub_of_le _ _ (by rw [UInt64.le_iff_toNat_le, d1]; omega), d1, f0, hm]
    omega
  have d3 : (UInt64.ofNat x.2.length).toNat = x.2.length := by
    rw [UInt64.toNat_ofNat', Nat.mod_eq_of_lt (by omega)]
  have d4 : (UInt64.ofNat x.2.length - e2).toNat = x.2.length - r.k0 := by
    rw [UInt64.toNat_sub_of_le _ _ (by rw [UInt64.le_iff_toNat_le, d3]; omega), d3, f0]
  unfold Placed.stashBytes
  by_cases hz : r.mid = []
  · rw [if_pos hz, if_pos]
    rw [hz] at d2
    apply UInt64.toNat_inj.mp
    exact d2
  · rw [if_neg hz, if_neg, if_neg, d2, d4, f1, hkey, ← hv]
    · rfl
    · rw [d4]; omega
    · intro h0
      rw [h0] at d2
      exact hz (List.length_eq_zero_iff.mp d2.symm)

theorem EdgeFor.serialize {n hash data x e} (h : EdgeFor n hash data x e) :
    serializeKV x.1 x.2 (AssignInfo.of e .incoming) = .ok (mkPlaced x e).stashBytes :=
  serializeKV_spec x _ h.cap _ rfl h.split

/-- The edges that leave something to the stash -/
def leaves (e : Edge) : Bool :=
  decide (e.valueIndex ≠ emptyIndex) && decide (e.flow.toNat + e.recFlow.toNat < e.capacity.toNat)

theorem EdgeFor.leaves {n hash data x e} (h : EdgeFor n hash data x e) :
    leaves e = (mkPlaced x e).stashed := by
  have hc := h.cap
  have hn := h.ne
  simp only [Tethys.leaves, Placed.stashed, mkPlaced, hn, ne_eq, not_false_eq_true, decide_true,
    Bool.true_and, hc]
  rfl

theorem serializeStash_spec {n hash} {data : List (CoreKey × List Index)} (edges : List Edge)
    (ps : List EdgePtr) (xs : List (CoreKey × List Index)) (es : List Edge)
    (hes : ps.map (fun p => edges[p.index]?) = es.map some)
    (h : List.Forall₂ (EdgeFor n hash data) xs es) :
    serializeStash edges data ps = .ok ((List.zipWith mkPlaced xs es).flatMap Placed.stashBytes) := by
  induction h generalizing ps with
  | nil => cases ps with
    | nil => rfl
    | cons => simp at hes
  | @cons x e xs es hx _ ih => cases ps with
    | nil => simp at hes
    | cons p ps =>
      simp only [List.map_cons, List.cons.injEq] at hes
      unfold serializeStash
      rw [hes.1]
      simp only
      rw [if_neg hx.ne, hx.get]
      simp only
      rw [hx.serialize, ih ps hes.2]
      rfl

theorem filter_zip {n hash} {data : List (CoreKey × List Index)}
    (xs : List (CoreKey × List Index)) (es : List Edge) (h : List.Forall₂ (EdgeFor n hash data) xs es) :
    ∃ ys, List.Forall₂ (EdgeFor n hash data) ys (es.filter leaves) ∧
      List.zipWith mkPlaced ys (es.filter leaves) = (List.zipWith mkPlaced xs es).filter Placed.stashed := by
  induction h with
  | nil => exact ⟨[], .nil, rfl⟩
  | @cons x e xs es hx _ ih =>
    obtain ⟨ys, h1, h2⟩ := ih
    simp only [List.filter_cons, List.zipWith_cons_cons]
    rw [hx.leaves]
    by_cases hs : (mkPlaced x e).stashed = true
    · rw [if_pos hs, if_pos hs]
      exact ⟨x :: ys, .cons hx h1, by simp [h2]⟩
    · rw [if_neg hs, if_neg hs]
      exact ⟨ys, h1, h2⟩

theorem idxs_eq_range (P : Edge → Bool) (es : List Edge) :
    idxs P es = ((List.range es.length).filter (fun i => match es[i]? with
      | some e => P e
      | none => false)).map (fun i => ⟨false, i⟩) := by
  induction es using List.reverseRecOn with
  | nil => rfl
  | append_singleton es e ih =>
    rw [idxs_append, ih, List.length_append, List.length_singleton, List.range_succ, List.filter_append,
      List.map_append]
    congr 1
    · congr 1
      apply List.filter_congr
      intro i hi
      rw [List.getElem?_append_left (List.mem_range.mp hi)]
    · simp only [List.filter_cons, List.filter_nil, List.getElem?_concat_length]
      split <;> rfl

theorem forall₂_get {α β : Type} {R : α → β → Prop} {xs : List α} {ys : List β} (h : List.Forall₂ R xs ys)
    {i : Nat} {y : β} (hy : ys[i]? = some y) : ∃ x, xs[i]? = some x ∧ R x y := by
  induction h generalizing i with
  | nil => simp at hy
  | @cons x y' xs ys hx _ ih =>
    cases i with
    | zero => simp at hy; subst hy; exact ⟨x, rfl, hx⟩
    | succ i => exact ih (by simpa using hy)

theorem mem_zipWith {n hash} {data : List (CoreKey × List Index)}
    {xs : List (CoreKey × List Index)} {es : List Edge} (h : List.Forall₂ (EdgeFor n hash data) xs es) :
    (∀ r ∈ List.zipWith mkPlaced xs es, ∃ x e, x ∈ xs ∧ e ∈ es ∧ r = mkPlaced x e ∧ EdgeFor n hash data x e) ∧
    (∀ e ∈ es, ∃ x ∈ xs, mkPlaced x e ∈ List.zipWith mkPlaced xs es ∧ EdgeFor n hash data x e) := by
  induction h with
  | nil => simp
  | @cons x e xs es hx _ ih =>
    constructor
    · intro r hr
      rcases List.mem_cons.mp hr with rfl | hr
      · exact ⟨x, e, by simp, by simp, rfl, hx⟩
      · obtain ⟨y, f, h1, h2, h3⟩ := ih.1 r hr
        exact ⟨y, f, List.mem_cons_of_mem _ h1, List.mem_cons_of_mem _ h2, h3⟩
    · intro f hf
      rcases List.mem_cons.mp hf with rfl | hf
      · exact ⟨x, by simp, by simp, hx⟩
      · obtain ⟨y, h1, h2, h3⟩ := ih.2 f hf
        exact ⟨y, List.mem_cons_of_mem _ h1, List.mem_cons_of_mem _ h2, h3⟩

theorem zip_map {n hash} {data : List (CoreKey × List Index)}
    {xs : List (CoreKey × List Index)} {es : List Edge} (h : List.Forall₂ (EdgeFor n hash data) xs es) :
    (List.zipWith mkPlaced xs es).map (fun r => (r.key, r.vals)) = xs := by
  induction h with
  | nil => rfl
  | cons hx _ ih =>
    simp only [List.zipWith_cons_cons, List.map_cons]
    rw [ih]
    rfl

/-- What the builder writes, in terms of the accepted lists -/
theorem build_spec {page n : Nat} (hash : CoreKey → UInt64 × UInt64) (hn : 2 ≤ n)
    (ins : List (CoreKey × List Index)) (hs : SmallEnough page ins) :
    ∃ (recs : List Placed) (cs : Nat → List (CoreKey × List Index)) (b0 : Builder),
      Builder.new page n hash = .ok b0 ∧
      recs.map (fun r => (r.key, r.vals)) = ins.filter (fits page) ∧
      (∀ r ∈ recs, r.a0 + r.a1 ≤ r.vals.length + 6) ∧
      (∀ v < n, ((cs v).flatMap chunkBytes).length ≤ page) ∧
      (∀ v c, c ∈ cs v ↔ ∃ r ∈ recs, (bucket1 n hash r.key = v ∧ c ∈ r.chunk1) ∨
        (bucket0 n hash r.key = v ∧ c ∈ r.chunk0)) ∧
      ∀ enc old, (b0.insertAll ins).build enc old =
        .ok ⟨(List.range n).map (fun v => enc.seal v (pageOf page (cs v))),
          if recs.filter Placed.stashed = [] then old
          else some ((recs.filter Placed.stashed).flatMap Placed.stashBytes)⟩ := by
  obtain ⟨b0, a0, a1, hb0, ha0, ha1, hb1⟩ := insertAll_builder (page := page) hash hn ins hs
  have hsmall := hs
  unfold SmallEnough at hsmall
  have hpage : (UInt64.ofNat (page / 8)).toNat = page / 8 := by
    rw [UInt64.toNat_ofNat', Nat.mod_eq_of_lt (by omega)]
  have hA : ∀ y ∈ placed page ins, ins[y.2]? = some y.1 ∧ y.2 < 2 ^ 64 - 1 ∧
      y.1.2.length + 6 < 2 ^ 64 := by
    intro y hy
    obtain ⟨h1, h2⟩ := mem_placed hy
    have hm := le_sum_of_mem (List.mem_of_getElem? h1)
    have hl := length_le_sum ins
    have hi := (List.getElem?_eq_some_iff.mp h1).1
    exact ⟨h1, by omega, by omega⟩
  have hsum : (((placed page ins).map (infoOf n hash)).map (fun l => l.len.toNat)).sum +
      (UInt64.ofNat (page / 8)).toNat < 2 ^ 64 := by
    rw [hpage]
    have h1 : (((placed page ins).map (infoOf n hash)).map (fun l => l.len.toNat)) =
        ((placed page ins).map Prod.fst).map (fun x => x.2.length + 6) := by
      rw [List.map_map, List.map_map]
      apply List.map_congr_left
      intro y hy
      exact infoOf_len (hA y hy).2.2
    rw [h1, placed_fst]
    have h2 := (List.filter_sublist (p := fits page) (l := ins)).map (fun x => x.2.length + 6)
    have h3 := h2.sum_le_sum (by simp)
    omega
  obtain ⟨a, hrun, halloc, hsk, hassign, hst, -, hvlen, hvx, hslack⟩ :=
    allocRun_spec n (UInt64.ofNat (page / 8)) ((placed page ins).map (infoOf n hash)) (by omega)
      (by
        intro l hl
        obtain ⟨y, hy, rfl⟩ := List.mem_map.mp hl
        exact infoOf_ok hn hs hy) hsum
  have hallocate : a1.allocate = .ok a := by
    unfold allocRun at hrun
    rw [ha0] at hrun
    simp only at hrun
    rw [ha1] at hrun
    exact hrun
  generalize hm : ((placed page ins).map (infoOf n hash)).length = m at hsk hassign hst hslack
  have hF : List.Forall₂ (EdgeFor n hash ins) ((placed page ins).map Prod.fst) (a.graph.edges.take m) :=
    edgeFor_of_skel _ _ hA hsk hassign.split
  rw [placed_fst] at hF
  have hes : a.graph.edges.take m ++ a.graph.edges.drop m = a.graph.edges := List.take_append_drop _ _
  have hmz := mem_zipWith hF
  have hokE : ∀ e ∈ a.graph.edges, EdgeOk ins e := by
    intro e he
    rw [← hes, List.mem_append] at he
    rcases he with he | he
    · obtain ⟨x, -, -, hx⟩ := hmz.2 e he
      exact hx.ok
    · intro hne; exact absurd (hslack e he) hne
  -- stash order
  have hlen : (ins.filter (fits page)).length = (a.graph.edges.take m).length := hF.length_eq
  have hmlen : (ins.filter (fits page)).length = m := by
    rw [← hm, ← placed_fst]; simp
  have hleaves : ∀ (i : Nat) e, a.graph.edges[i]? = some e →
      (a.stashed.any (fun p => p.index == i)) = leaves e := by
    intro i e he
    by_cases hi : i < m
    · have he' : (a.graph.edges.take m)[i]? = some e := by rw [List.getElem?_take_of_lt hi]; exact he
      obtain ⟨x, hx, hR⟩ := forall₂_get hF he'
      have hL : ∃ y, (placed page ins)[i]? = some y ∧ y.1 = x := by
        rw [← placed_fst, List.getElem?_map] at hx
        cases hy : (placed page ins)[i]? with
        | none => rw [hy] at hx; simp at hx
        | some y => rw [hy] at hx; exact ⟨y, rfl, by simpa using hx⟩
      obtain ⟨y, hy, rfl⟩ := hL
      have hpart : (a.parts m)[i]? = some (partOf e) := by
        unfold Allocator.parts; rw [List.getElem?_map, he']; rfl
      have hilen := infoOf_len (n := n) (hash := hash) (x := y) (hA y (List.mem_of_getElem? hy)).2.2
      rw [Bool.eq_iff_iff, List.any_eq_true]
      simp only [beq_iff_eq]
      constructor
      · rintro ⟨p, hp, rfl⟩
        obtain ⟨-, it, q, h1, h2, h3⟩ := (hst p).mp hp
        rw [hpart] at h2
        simp only [List.getElem?_map, hy, Option.map_some, Option.some.injEq] at h1 h2
        subst h1 h2
        simp only [itemOf, partOf, hilen] at h3
        simp only [leaves, hR.ne, ne_eq, not_false_eq_true, decide_true, Bool.true_and, hR.cap]
        exact decide_eq_true h3
      · intro hl
        simp only [leaves, hR.ne, ne_eq, not_false_eq_true, decide_true, Bool.true_and, hR.cap] at hl
        refine ⟨⟨false, i⟩, (hst _).mpr ⟨rfl, itemOf (infoOf n hash y), partOf e, ?_, hpart, ?_⟩, rfl⟩
        · simp [hy]
        · simp only [itemOf, partOf, hilen]
          exact of_decide_eq_true hl
    · have hed : e ∈ a.graph.edges.drop m := by
        apply List.mem_of_getElem? (i := i - m)
        rw [List.getElem?_drop, show m + (i - m) = i by omega]
        exact he
      have : leaves e = false := by simp [leaves, hslack e hed]
      rw [this, List.any_eq_false]
      intro p hp
      obtain ⟨-, it, q, h1, -, -⟩ := (hst p).mp hp
      have := (List.getElem?_eq_some_iff.mp h1).1
      simp only [List.length_map] at this hm
      rw [hm] at this
      simp only [beq_iff_eq]
      omega
  have hset : setOrder a.graph.edges a.stashed = idxs leaves a.graph.edges := by
    rw [idxs_eq_range]
    unfold setOrder
    congr 1
    apply List.filter_congr
    intro i hi
    have hi' := List.getElem?_eq_getElem (List.mem_range.mp hi)
    rw [hi']
    exact hleaves i _ hi'
  have hdropleaves : (a.graph.edges.drop m).filter leaves = [] := by
    rw [List.filter_eq_nil_iff]
    intro e he
    simp [leaves, hslack e he]
  have hfl : a.graph.edges.filter leaves = (a.graph.edges.take m).filter leaves := by
    conv_lhs => rw [← hes, List.filter_append, hdropleaves, List.append_nil]
  obtain ⟨ys, hys, hzip⟩ := filter_zip _ _ hF
  have hser : serializeStash a.graph.edges ins (setOrder a.graph.edges a.stashed) =
      .ok (((List.zipWith mkPlaced (ins.filter (fits page)) (a.graph.edges.take m)).filter
        Placed.stashed).flatMap Placed.stashBytes) := by
    rw [hset, serializeStash_spec a.graph.edges _ ys ((a.graph.edges.take m).filter leaves) (by
      rw [idxs_get, hfl]) hys, hzip]
  have hnil : a.stashed = [] ↔
      (List.zipWith mkPlaced (ins.filter (fits page)) (a.graph.edges.take m)).filter Placed.stashed = [] := by
    rw [← hzip]
    have hl : (List.zipWith mkPlaced ys ((a.graph.edges.take m).filter leaves)).length =
        (a.graph.edges.filter leaves).length := by
      rw [List.length_zipWith, hys.length_eq, hfl]; omega
    have hl0 : List.zipWith mkPlaced ys ((a.graph.edges.take m).filter leaves) = [] ↔
        a.graph.edges.filter leaves = [] := by
      rw [← List.length_eq_zero_iff, hl, List.length_eq_zero_iff]
    rw [hl0, List.filter_eq_nil_iff]
    constructor
    · intro h e he
      obtain ⟨i, hi⟩ := List.mem_iff_getElem?.mp he
      rw [← hleaves i e hi, h]; simp
    · intro h
      rw [List.eq_nil_iff_forall_not_mem]
      intro p hp
      obtain ⟨-, it, q, h1, h2, -⟩ := (hst p).mp hp
      have hi := (List.getElem?_eq_some_iff.mp h2).1
      unfold Allocator.parts at hi
      simp only [List.length_map, List.length_take] at hi
      have he := List.getElem?_eq_getElem (l := a.graph.edges) (i := p.index) (by omega)
      have := hleaves _ _ he
      have hany : a.stashed.any (fun q => q.index == p.index) = true :=
        List.any_eq_true.mpr ⟨p, hp, by simp⟩
      rw [hany] at this
      exact h _ (List.mem_of_getElem? he) this.symm
  -- sizes
  have hsize : ∀ v, ((bucketChunks ins a.graph.edges v).flatMap chunkBytes).length ≤ page := by
    intro v
    have h1 := bucketChunks_length_le ins a.graph.edges v
    have h2 := hassign.fits v
    rw [hpage] at h2
    unfold Allocator.parts at h2
    rw [load_eq _ _ hsk (by
      intro l hl
      obtain ⟨y, hy, rfl⟩ := List.mem_map.mp hl
      exact (infoOf_ok (hash := hash) hn hs hy).2.2.2)] at h2
    have h3 : (a.graph.edges.map (contrib v)).sum = ((a.graph.edges.take m).map (contrib v)).sum := by
      conv_lhs => rw [← hes, List.map_append, List.sum_append]
      have : ((a.graph.edges.drop m).map (contrib v)).sum = 0 := by
        apply List.sum_eq_zero
        intro x hx
        obtain ⟨e, he, rfl⟩ := List.mem_map.mp hx
        exact contrib_slack (hslack e he) v
      omega
    omega
  refine ⟨List.zipWith mkPlaced (ins.filter (fits page)) (a.graph.edges.take m),
    bucketChunks ins a.graph.edges, b0, hb0, ?_, ?_, fun v _ => hsize v, ?_, ?_⟩
  · exact zip_map hF
  · intro r hr
    obtain ⟨x, e, -, -, rfl, hx⟩ := hmz.1 r hr
    exact hx.split
  · intro v c
    unfold bucketChunks
    simp only [List.mem_append, List.mem_flatMap, List.mem_filter, stopsAt, startsAt, decide_eq_true_eq]
    constructor
    · rintro (⟨e, ⟨he, hv⟩, hc⟩ | ⟨e, ⟨he, hv⟩, hc⟩)
      · rw [← hes, List.mem_append] at he
        rcases he with he | he
        · obtain ⟨x, -, h2, hx⟩ := hmz.2 e he
          refine ⟨_, h2, Or.inl ⟨?_, by rw [← hx.chunk_in]; exact hc⟩⟩
          rw [hx.stop] at hv
          exact VertexPtr.inner.inj hv
        · simp [chunk, hslack e he] at hc
      · rw [← hes, List.mem_append] at he
        rcases he with he | he
        · obtain ⟨x, -, h2, hx⟩ := hmz.2 e he
          refine ⟨_, h2, Or.inr ⟨?_, by rw [← hx.chunk_out]; exact hc⟩⟩
          rw [hx.start] at hv
          exact VertexPtr.inner.inj hv
        · simp [chunk, hslack e he] at hc
    · rintro ⟨r, hr, h⟩
      obtain ⟨x, e, -, he, rfl, hx⟩ := hmz.1 r hr
      rcases h with ⟨hv, hc⟩ | ⟨hv, hc⟩
      · refine Or.inl ⟨e, ⟨List.mem_of_mem_take he, ?_⟩, by rw [hx.chunk_in]; exact hc⟩
        rw [hx.stop, ← hv]; rfl
      · refine Or.inr ⟨e, ⟨List.mem_of_mem_take he, ?_⟩, by rw [hx.chunk_out]; exact hc⟩
        rw [hx.start, ← hv]; rfl
  · intro enc old
    unfold Builder.build
    rw [hb1]
    simp only [Bool.false_eq_true, if_false]
    rw [hallocate]
    simp only
    rw [encodeBuckets_spec enc page a.graph ins
      (fun v => enc.seal v (pageOf page (bucketChunks ins a.graph.edges v)))]
    · simp only
      by_cases hz : a.stashed = []
      · rw [if_pos hz, if_pos (hnil.mp hz)]
      · rw [if_neg hz, if_neg (fun h => hz (hnil.mpr h)), hser]
    · intro v hv
      have hv' := List.mem_range.mp hv
      have hvv := List.getElem?_eq_getElem (l := a.graph.vertices) (i := v) (by omega)
      exact encodeBucket_spec enc page a.graph ins v _ hvv (hvx v _ hvv).1 (hvx v _ hvv).2 hokE (hsize v)

end Verif.Tethys
