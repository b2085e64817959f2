import Verif.Tethys.AllocLemmas
import Mathlib.Algebra.Order.BigOperators.Group.List

/-!
# C22, C23: the allocation
-/

namespace Verif.Tethys

open Spec

/-! ## What the allocation computes -/

/-- The parts of the lists: the entries of the `j`-th list that go to its first and to its second
bucket are `flow` and `rec_flow` of the `j`-th edge (tethys_allocator.cpp L87-91). -/
def Allocator.parts (a : Allocator) (m : Nat) : List (Nat × Nat) := (a.graph.edges.take m).map partOf

theorem take_skel {es : List Edge} {A B : List (UInt64 × UInt64 × VertexPtr × VertexPtr)}
    (h : es.map Edge.skel = A ++ B) :
    (es.take A.length).map Edge.skel = A ∧ (es.drop A.length).map Edge.skel = B := by
  constructor
  · rw [List.map_take, h, List.take_left]
  · rw [List.map_drop, h, List.drop_left]

theorem slackOp_mem {page d : UInt64} {i : Nat} {op : BuildOp} (h : op ∈ slackOp page d i) :
    op.edgeOf.1 = emptyIndex ∧ ((op.edgeOf.2.2.1 = .source ∧ op.edgeOf.2.2.2 ≠ .sink) ∨
      (op.edgeOf.2.2.2 = .sink ∧ op.edgeOf.2.2.1 ≠ .source)) := by
  unfold slackOp at h
  split at h
  · simp at h; subst h; simp [BuildOp.edgeOf]
  · split at h
    · simp at h; subst h; simp [BuildOp.edgeOf]
    · simp at h

/-- Everything about a run of the allocator -/
theorem allocRun_spec (n : Nat) (page : UInt64) (ls : List ListInfo) (hn : n ≠ 0)
    (hls : ∀ l ∈ ls, l.Ok n page)
    (hsum : (ls.map (fun l => l.len.toNat)).sum + page.toNat < 2 ^ 64) :
    ∃ a, allocRun n page ls = .ok a ∧ a.allocated = true ∧
      (a.graph.edges.take ls.length).map Edge.skel = (ls.map listOp).map BuildOp.edgeOf ∧
      IsAssignment page.toNat (ls.map itemOf) (a.parts ls.length) ∧
      (∀ p, p ∈ a.stashed ↔ p.recip = false ∧ ∃ it x, (ls.map itemOf)[p.index]? = some it ∧
        (a.parts ls.length)[p.index]? = some x ∧ x.1 + x.2 < it.len) ∧
      (∀ parts', IsAssignment page.toNat (ls.map itemOf) parts' →
        weigh (fun _ => 1) (ls.map itemOf) parts' ≤
          weigh (fun _ => 1) (ls.map itemOf) (a.parts ls.length)) ∧
      a.graph.vertices.length = n ∧
      (∀ v vx, a.graph.vertices[v]? = some vx →
        vx.inEdges = idxs (stopsAt (.inner v)) a.graph.edges ∧
        vx.outEdges = idxs (startsAt (.inner v)) a.graph.edges) ∧
      ∀ e ∈ a.graph.edges.drop ls.length, e.valueIndex = emptyIndex := by
  obtain ⟨g0, hg0⟩ : ∃ g0, Graph.new n = .ok g0 := by
    unfold Graph.new; rw [if_neg hn]; exact ⟨_, rfl⟩
  have hf0 := fresh_new hg0
  have hv0 : g0.vertices.length = n ∧ g0.edges = [] := by
    unfold Graph.new at hg0; rw [if_neg hn] at hg0; cases hg0; simp
  obtain ⟨g1, hins, hb1⟩ := insertAll_spec ⟨g0, [], n, page, false⟩ ls rfl hf0
    (by simp only; rw [hv0.1]; exact hls)
  simp only at hins hb1
  have hf1 := fresh_buildFrom hf0 _ hb1
  obtain ⟨hsk1, hv1⟩ := buildFrom_skel hb1
  rw [hv0.2] at hsk1
  rw [hv0.1] at hv1
  simp only [List.map_nil, List.nil_append] at hsk1
  have hcapsum : ∀ v, outCap (g1.edges.map Edge.skel) v ≤ (ls.map (fun l => l.len.toNat)).sum := by
    intro v
    rw [hsk1]
    clear hins hb1 hsk1 hsum hls
    induction ls with
    | nil => simp [outCap]
    | cons l ls ih =>
      simp only [outCap, List.map_cons, List.sum_cons, listOp, BuildOp.edgeOf] at ih ⊢
      split <;> omega
  have hdd : ∀ v, (UInt64.ofNat (outCap (g1.edges.map Edge.skel) v)).toNat =
      outCap (g1.edges.map Edge.skel) v := by
    intro v
    have := hcapsum v
    rw [UInt64.toNat_ofNat', Nat.mod_eq_of_lt (by omega)]
  generalize hDD : (fun v => UInt64.ofNat (outCap (g1.edges.map Edge.skel) v)) = dd at *
  have hdd' : ∀ v, (dd v).toNat = outCap (g1.edges.map Edge.skel) v := by
    intro v; rw [← hDD]; exact hdd v
  obtain ⟨g2, hslack, hb2⟩ := addSlack_spec page dd (List.range n) List.nodup_range g1 hf1
    (by intro i hi; rw [hv1]; exact List.mem_range.mp hi) (fun i _ => (hdd' i).symm)
  have hf2 := fresh_buildFrom hf1 _ hb2
  obtain ⟨hsk2, hv2⟩ := buildFrom_skel hb2
  rw [hv1] at hv2
  rw [hsk1] at hsk2
  obtain ⟨g3, hmax, hM, hv3, -⟩ := computeResidualMaxflow_spec hf2
  have hsk3 := hM.skel.trans hsk2
  have hlen3 : g3.vertices.length = n := by rw [hv3]; exact hv2
  have hAlen : ((ls.map listOp).map BuildOp.edgeOf).length = ls.length := by simp
  obtain ⟨hskL, hskS⟩ := take_skel hsk3
  rw [hAlen] at hskL hskS
  have hes : g3.edges.take ls.length ++ g3.edges.drop ls.length = g3.edges :=
    List.take_append_drop _ _
  -- edges of lists and edges of slack
  have hlistmem : ∀ e ∈ g3.edges.take ls.length, ∃ l ∈ ls, e.skel = (listOp l).edgeOf := by
    intro e he
    have : e.skel ∈ (ls.map listOp).map BuildOp.edgeOf := by
      rw [← hskL]; exact List.mem_map.mpr ⟨e, he, rfl⟩
    obtain ⟨op, hop, h⟩ := List.mem_map.mp this
    obtain ⟨l, hl, rfl⟩ := List.mem_map.mp hop
    exact ⟨l, hl, h.symm⟩
  have hslackmem : ∀ e ∈ g3.edges.drop ls.length, e.valueIndex = emptyIndex ∧
      ((e.start = .source ∧ e.stop ≠ .sink) ∨ (e.stop = .sink ∧ e.start ≠ .source)) := by
    intro e he
    have : e.skel ∈ ((List.range n).flatMap (fun i => slackOp page (dd i) i)).map BuildOp.edgeOf := by
      rw [← hskS]; exact List.mem_map.mpr ⟨e, he, rfl⟩
    obtain ⟨op, hop, h⟩ := List.mem_map.mp this
    obtain ⟨i, -, hop⟩ := List.mem_flatMap.mp hop
    have := slackOp_mem hop
    rw [h] at this
    exact this
  have hidx : ∀ e ∈ g3.edges.take ls.length, e.valueIndex ≠ emptyIndex := by
    intro e he
    obtain ⟨l, hl, h⟩ := hlistmem e he
    simp only [Edge.skel, listOp, BuildOp.edgeOf, Prod.mk.injEq] at h
    rw [h.1]; exact (hls l hl).2.2.2
  have hlenle : ∀ l ∈ ls, l.len.toNat ≤ (ls.map (fun l => l.len.toNat)).sum := fun l hl =>
    List.single_le_sum (by simp) _ (List.mem_map.mpr ⟨l, hl, rfl⟩)
  -- list edge at index j
  have hget : ∀ (j : Nat) l, ls[j]? = some l → ∃ e, g3.edges[j]? = some e ∧
      e ∈ g3.edges.take ls.length ∧ e.skel = (listOp l).edgeOf := by
    intro j l hj
    have hjl := (List.getElem?_eq_some_iff.mp hj).1
    have h1 : ((g3.edges.take ls.length).map Edge.skel)[j]? = some (listOp l).edgeOf := by
      rw [hskL]; simp [hj]
    rw [List.getElem?_map] at h1
    cases h2 : (g3.edges.take ls.length)[j]? with
    | none => simp [h2] at h1
    | some e =>
      rw [h2] at h1
      refine ⟨e, ?_, List.mem_of_getElem? h2, by simpa using h1⟩
      rw [List.getElem?_take_of_lt hjl] at h2
      exact h2
  have hwrap : ∀ b i, page.toNat + val g3.edges b i < 2 ^ 64 := by
    intro b i
    unfold val
    cases he : g3.edges[i]? with
    | none => simp only; have := page.toNat_lt; omega
    | some e =>
      simp only
      split
      · have := page.toNat_lt; omega
      · rename_i hne
        have hmem := List.mem_of_getElem? he
        rw [← hes, List.mem_append] at hmem
        rcases hmem with hmem | hmem
        · obtain ⟨l, hl, h⟩ := hlistmem e hmem
          simp only [Edge.skel, listOp, BuildOp.edgeOf, Prod.mk.injEq] at h
          have hb := hM.balanced e (List.mem_of_getElem? he)
          have := hlenle l hl
          rw [h.2.1] at hb
          cases b <;> simp only [Edge.flowAlong, Bool.false_eq_true, if_false, if_true] <;> omega
        · exact absurd (hslackmem e hmem).1 hne
  obtain ⟨es', st', htrim, hsk', hle', -, hload', hst'⟩ := trimVertices_spec page g3.vertices 0 g3.edges []
    (by
      intro j v hj
      rw [Nat.zero_add]
      exact hM.wf.inc _ _ (vertex_inner_ok.mpr hj))
    (by
      intro j v hj
      rw [Nat.zero_add]
      exact hM.wf.out _ _ (vertex_inner_ok.mpr hj)) hwrap
  simp only [Nat.zero_add] at hload'
  rw [hlen3] at hload'
  obtain ⟨hskL', hskS'⟩ := take_skel (hsk'.trans hsk3)
  rw [hAlen] at hskL' hskS'
  -- loads
  have hix : ∀ l ∈ ls, l.index ≠ emptyIndex := fun l hl => (hls l hl).2.2.2
  have hloads : ∀ es : List Edge, es.map Edge.skel = g3.edges.map Edge.skel → ∀ v,
      load (ls.map itemOf) ((es.take ls.length).map partOf) v = ptrLoad es v := by
    intro es hs v
    obtain ⟨h1, h2⟩ := take_skel (hs.trans hsk3)
    rw [hAlen] at h1 h2
    rw [load_eq ls _ h1 hix, ptrLoad_eq]
    conv_rhs => rw [← List.take_append_drop ls.length es, List.map_append, List.sum_append]
    have : ((es.drop ls.length).map (contrib v)).sum = 0 := by
      apply List.sum_eq_zero
      intro x hx
      obtain ⟨e, he, rfl⟩ := List.mem_map.mp hx
      apply contrib_slack
      have hm : e.skel ∈ ((List.range n).flatMap (fun i => slackOp page (dd i) i)).map BuildOp.edgeOf := by
        rw [← h2]; exact List.mem_map.mpr ⟨e, he, rfl⟩
      obtain ⟨op, hop, h⟩ := List.mem_map.mp hm
      obtain ⟨i, -, hop⟩ := List.mem_flatMap.mp hop
      have := (slackOp_mem hop).1
      rw [h] at this
      exact this
    omega
  have hloadL : ∀ v < n, load (ls.map itemOf) ((es'.take ls.length).map partOf) v =
      min page.toNat (load (ls.map itemOf) ((g3.edges.take ls.length).map partOf) v) := by
    intro v hv
    rw [hloads es' hsk', hloads g3.edges rfl, hload' v hv]
  have hitems : ∀ it ∈ ls.map itemOf, it.h0 < n ∧ it.h1 < n := by
    intro it hit
    obtain ⟨l, hl, rfl⟩ := List.mem_map.mp hit
    exact ⟨(hls l hl).1, (hls l hl).2.1⟩
  have hloadout : ∀ parts v, n ≤ v → load (ls.map itemOf) parts v = 0 := by
    intro parts v hv
    unfold load
    apply List.sum_eq_zero
    intro x hx
    obtain ⟨⟨it, p⟩, hm, rfl⟩ := List.mem_map.mp hx
    have := hitems it (List.of_mem_zip hm).1
    simp only
    rw [if_neg (by omega), if_neg (by omega)]
    rfl
  have hlenL : (g3.edges.take ls.length).length = ls.length := by
    have := congrArg List.length hskL; simpa using this
  have hlenL' : (es'.take ls.length).length = ls.length := by
    have := congrArg List.length hskL'; simpa using this
  -- parts, index by index
  have hparts : ∀ (j : Nat) l, ls[j]? = some l → ∃ e e', g3.edges[j]? = some e ∧ es'[j]? = some e' ∧
      e.start = .inner l.h0 ∧ e.stop = .inner l.h1 ∧
      ((g3.edges.take ls.length).map partOf)[j]? = some (partOf e) ∧
      ((es'.take ls.length).map partOf)[j]? = some (partOf e') ∧
      e.flow.toNat + e.recFlow.toNat = l.len.toNat ∧
      e'.flow.toNat ≤ e.flow.toNat ∧ e'.recFlow.toNat ≤ e.recFlow.toNat ∧
      (∀ b, val g3.edges b j = (e.flowAlong b).toNat) ∧ ∀ b, val es' b j = (e'.flowAlong b).toNat := by
    intro j l hj
    have hjl := (List.getElem?_eq_some_iff.mp hj).1
    obtain ⟨e, h1, h2, h3⟩ := hget j l hj
    obtain ⟨e', h4, h5⟩ := getElem?_skel hsk' h1
    have hne := hidx e h2
    have hne' : e'.valueIndex ≠ emptyIndex := by
      simp only [Edge.skel, Prod.mk.injEq] at h5
      rw [h5.1]; exact hne
    have hb := hM.balanced e (List.mem_of_getElem? h1)
    have hve : ∀ b, val g3.edges b j = (e.flowAlong b).toNat := fun b => by simp [val, h1, hne]
    have hve' : ∀ b, val es' b j = (e'.flowAlong b).toNat := fun b => by simp [val, h4, hne']
    simp only [Edge.skel, listOp, BuildOp.edgeOf, Prod.mk.injEq] at h3
    refine ⟨e, e', h1, h4, h3.2.2.1, h3.2.2.2, ?_, ?_, ?_, ?_, ?_, hve, hve'⟩
    · rw [List.getElem?_map, List.getElem?_take_of_lt hjl, h1]; rfl
    · rw [List.getElem?_map, List.getElem?_take_of_lt hjl, h4]; rfl
    · rw [hb, h3.2.1]
    · have := hle' false j; rw [hve, hve'] at this; simpa [Edge.flowAlong] using this
    · have := hle' true j; rw [hve, hve'] at this; simpa [Edge.flowAlong] using this
  refine ⟨⟨{ g3 with edges := es' }, st', n, page, true⟩, ?_, rfl, hskL', ⟨?_, ?_, ?_⟩, ?_, ?_, hlen3,
    ?_, ?_⟩
  · unfold allocRun Allocator.new
    rw [hg0]
    simp only
    rw [hins]
    simp only [Allocator.allocate, Bool.false_eq_true, if_false]
    rw [hslack]
    simp only
    rw [hmax]
    simp only
    rw [htrim]
  · simp only [Allocator.parts, List.length_map]
    exact hlenL'
  · rintro ⟨it, p⟩ hx
    obtain ⟨j, hj⟩ := List.mem_iff_getElem?.mp hx
    rw [List.getElem?_zip_eq_some] at hj
    obtain ⟨h1, h2⟩ := hj
    simp only [List.getElem?_map] at h1
    cases hl : ls[j]? with
    | none => simp [hl] at h1
    | some l =>
      rw [hl] at h1
      obtain ⟨e, e', -, -, -, -, -, q2, q3, q4, q5, -, -⟩ := hparts j l hl
      unfold Allocator.parts at h2
      simp only at h2
      rw [q2] at h2
      simp only [Option.some.injEq] at h2
      simp only [Option.map_some, Option.some.injEq] at h1
      subst h1 h2
      simp only [partOf, itemOf]
      omega
  · intro v
    by_cases hv : v < n
    · show load _ ((es'.take ls.length).map partOf) v ≤ _
      rw [hloadL v hv]
      exact Nat.min_le_left _ _
    · rw [hloadout _ v (by omega)]; omega
  · intro p
    simp only
    rw [hst' p]
    simp only [List.not_mem_nil, false_or]
    constructor
    · rintro ⟨hr, b, hb⟩
      refine ⟨hr, ?_⟩
      -- the edge is the edge of a list
      have hpos : 0 < val g3.edges b p.index := by omega
      have hlt : p.index < ls.length := by
        by_contra hge
        unfold val at hpos
        cases he : g3.edges[p.index]? with
        | none => rw [he] at hpos; simp at hpos
        | some e =>
          rw [he] at hpos
          have hm : e ∈ g3.edges.drop ls.length := by
            apply List.mem_of_getElem? (i := p.index - ls.length)
            rw [List.getElem?_drop, show ls.length + (p.index - ls.length) = p.index by omega]
            exact he
          simp [(hslackmem e hm).1] at hpos
      have hl : ls[p.index]? = some ls[p.index] := List.getElem?_eq_getElem hlt
      generalize ls[p.index] = l at hl
      obtain ⟨e, e', -, -, -, -, -, q2, q3, q4, q5, q6, q7⟩ := hparts _ l hl
      refine ⟨itemOf l, partOf e', by simp [hl], q2, ?_⟩
      rw [q6, q7] at hb
      simp only [partOf, itemOf]
      cases b <;> simp only [Edge.flowAlong, Bool.false_eq_true, if_false, if_true] at hb <;> omega
    · rintro ⟨hr, it, x, h1, h2, h3⟩
      refine ⟨hr, ?_⟩
      simp only [List.getElem?_map] at h1
      cases hl : ls[p.index]? with
      | none => simp [hl] at h1
      | some l =>
        rw [hl] at h1
        obtain ⟨e, e', -, -, -, -, -, q2, q3, q4, q5, q6, q7⟩ := hparts _ l hl
        unfold Allocator.parts at h2
        simp only at h2
        rw [q2] at h2
        simp only [Option.some.injEq] at h2
        simp only [Option.map_some, Option.some.injEq] at h1
        subst h1 h2
        simp only [partOf, itemOf] at h3
        by_cases hc : e'.flow.toNat < e.flow.toNat
        · exact ⟨false, by rw [q6, q7]; simpa [Edge.flowAlong] using hc⟩
        · exact ⟨true, by rw [q6, q7]; simp only [Edge.flowAlong, if_true]; omega⟩
  · intro parts' hA
    obtain ⟨S, hS⟩ := hM.cut
    have hSS : Saturated (g3.edges.drop ls.length) S :=
      ⟨hS.1, hS.2.1, fun e he => hS.2.2 e (List.mem_of_mem_drop he)⟩
    have hload0 : ∀ v < n, load (ls.map itemOf) ((es'.take ls.length).map partOf) v =
        if S (.inner v) then page.toNat
        else load (ls.map itemOf) ((g3.edges.take ls.length).map partOf) v := by
      intro v hv
      rw [hloadL v hv]
      have hsb := slack_bound (g3.edges.drop ls.length) S v
        (fun e he => hM.balanced e (List.mem_of_mem_drop he)) hSS (fun e he => (hslackmem e he).2)
      rw [hskS, fullAt_slack page dd _ List.nodup_range v, if_pos (List.mem_range.mpr hv), hdd' v, hsk1,
        ← hskL] at hsb
      have hlc := load_conserved (g3.edges.take ls.length) (g3.edges.drop ls.length) v
        (fun e he => hM.balanced e (List.mem_of_mem_take he)) hidx (by rw [hes]; exact hM.conserved v)
      rw [← load_eq ls _ hskL hix] at hlc
      cases hs : S (.inner v) with
      | true =>
        have := hsb.1 hs
        simp only [if_true]
        omega
      | false =>
        have := hsb.2 hs
        simp only [Bool.false_eq_true, if_false]
        omega
    -- weights: 1 outside of the cut
    let w : Nat → Nat := fun v => if S (.inner v) then 0 else 1
    have hmono : weigh w (ls.map itemOf) parts' ≤
        weigh w (ls.map itemOf) ((g3.edges.take ls.length).map partOf) := by
      apply weigh_mono w _ _ _ hA.length (by simp only [List.length_map]; exact hlenL)
      intro i it p p' h1 h2 h3
      have hzip : (it, p) ∈ (ls.map itemOf).zip parts' := by
        apply List.mem_of_getElem? (i := i)
        rw [List.getElem?_zip_eq_some]
        exact ⟨h1, h2⟩
      have hsp := hA.split _ hzip
      simp only [List.getElem?_map] at h1
      cases hl : ls[i]? with
      | none => simp [hl] at h1
      | some l =>
        rw [hl] at h1
        simp only [Option.map_some, Option.some.injEq] at h1
        obtain ⟨e, e', k1, k2, k3, k4, q1, q2, q3, -⟩ := hparts _ l hl
        rw [q1] at h3
        simp only [Option.some.injEq] at h3
        subst h1 h3
        obtain ⟨s1, s2⟩ := hS.2.2 e (List.mem_of_getElem? k1)
        rw [k3, k4] at s1 s2
        simp only [itemOf] at hsp
        simp only [itemOf, partOf, w]
        cases a : S (.inner l.h0) <;> cases b : S (.inner l.h1) <;>
          simp only [Bool.false_eq_true, if_false, if_true, Nat.zero_mul, Nat.one_mul, Nat.zero_add,
            Nat.add_zero, le_refl]
        · omega
        · have := s2 a b
          rw [this] at q3
          simp only [UInt64.toNat_zero, Nat.add_zero] at q3
          omega
        · have := s1 a b
          rw [this] at q3
          simp only [UInt64.toNat_zero, Nat.zero_add] at q3
          omega
    show _ ≤ weigh (fun _ => 1) (ls.map itemOf) ((es'.take ls.length).map partOf)
    rw [← weigh_eq w n _ _ hitems, ← weigh_eq w n _ _ hitems] at hmono
    rw [← weigh_eq _ n _ _ hitems, ← weigh_eq _ n _ _ hitems]
    calc ∑ v ∈ Finset.range n, 1 * load (ls.map itemOf) parts' v
        ≤ ∑ v ∈ Finset.range n, ((if S (.inner v) then page.toNat else 0) +
            w v * load (ls.map itemOf) parts' v) := by
          apply Finset.sum_le_sum
          intro v _
          have := hA.fits v
          simp only [w]
          split <;> omega
      _ ≤ ∑ v ∈ Finset.range n, ((if S (.inner v) then page.toNat else 0) +
            w v * load (ls.map itemOf) ((g3.edges.take ls.length).map partOf) v) := by
          rw [Finset.sum_add_distrib, Finset.sum_add_distrib]
          omega
      _ = ∑ v ∈ Finset.range n, 1 * load (ls.map itemOf) ((es'.take ls.length).map partOf) v := by
          apply Finset.sum_congr rfl
          intro v hv
          rw [hload0 v (Finset.mem_range.mp hv)]
          simp only [w]
          split <;> omega
  · intro v vx hv
    simp only at hv ⊢
    rw [idxs_congr (stopsAt_skel _) hsk', idxs_congr (startsAt_skel _) hsk']
    exact ⟨hM.wf.inc _ _ (vertex_inner_ok.mpr hv), hM.wf.out _ _ (vertex_inner_ok.mpr hv)⟩
  · intro e he
    simp only at he
    have hm : e.skel ∈ ((List.range n).flatMap (fun i => slackOp page (dd i) i)).map BuildOp.edgeOf := by
      rw [← hskS']; exact List.mem_map.mpr ⟨e, he, rfl⟩
    obtain ⟨op, hop, h⟩ := List.mem_map.mp hm
    obtain ⟨i, -, hop⟩ := List.mem_flatMap.mp hop
    have := (slackOp_mem hop).1
    rw [h] at this
    exact this

/-! ## C22 -/

/-- **C22**: for every table size, page size and sequence of lists accepted by `insert` (buckets in
range, length at most a page, an index other than `~0`; total length and page fit in 64 bits), the
insertions and the allocation succeed. The edge of each list keeps the index, the length and the two
buckets of the list; no bucket receives more than a page; the parts of a list in its two buckets do
not exceed its length, the rest being the stashed part; and the pointers of `get_stashed_edges` are
exactly those of the lists whose stashed part is not empty. -/
theorem C22_allocation (n : Nat) (page : UInt64) (ls : List ListInfo) (hn : n ≠ 0)
    (hls : ∀ l ∈ ls, l.h0 < n ∧ l.h1 < n ∧ l.len ≤ page ∧ l.index ≠ emptyIndex)
    (hsum : (ls.map (fun l => l.len.toNat)).sum + page.toNat < 2 ^ 64) :
    ∃ a, allocRun n page ls = .ok a ∧ a.allocated = true ∧
      (a.graph.edges.take ls.length).map (fun e => (e.valueIndex, e.capacity, e.start, e.stop)) =
        ls.map (fun l => (l.index, l.len, VertexPtr.inner l.h0, VertexPtr.inner l.h1)) ∧
      IsAssignment page.toNat (ls.map (fun l => ⟨l.h0, l.h1, l.len.toNat⟩)) (a.parts ls.length) ∧
      ∀ p, p ∈ a.stashed ↔ p.recip = false ∧ ∃ l x, ls[p.index]? = some l ∧
        (a.parts ls.length)[p.index]? = some x ∧ x.1 + x.2 < l.len.toNat := by
  obtain ⟨a, h1, h2, h3, h4, h5, -, -⟩ := allocRun_spec n page ls hn hls hsum
  refine ⟨a, h1, h2, ?_, h4, ?_⟩
  · rw [List.map_map] at h3
    exact h3
  · intro p
    rw [h5 p]
    constructor
    · rintro ⟨hr, it, x, a1, a2, a3⟩
      simp only [List.getElem?_map] at a1
      cases hl : ls[p.index]? with
      | none => simp [hl] at a1
      | some l =>
        rw [hl] at a1
        simp only [Option.map_some, Option.some.injEq] at a1
        subst a1
        exact ⟨hr, l, x, rfl, a2, a3⟩
    · rintro ⟨hr, l, x, a1, a2, a3⟩
      exact ⟨hr, itemOf l, x, by simp [a1], a2, a3⟩

/-- **C22**, `insert` rejects what does not fit: a list longer than a page, or the index reserved for
the edges to the source and to the sink. -/
theorem C22_insert_rejects (a : Allocator) (l : ListInfo)
    (h : a.allocated = true ∨ l.index = emptyIndex ∨ l.len > a.page) :
    a.insert l = .error .invalidArgument := by
  unfold Allocator.insert
  split
  · rfl
  · split
    · rfl
    · split
      · rfl
      · rename_i h1 h2 h3
        rcases h with h | h | h
        · exact absurd h h1
        · exact absurd h h2
        · exact absurd h h3

/-! ## C23 -/

/-- **C23**: no assignment of the entries to their two buckets leaves fewer entries to the stash. -/
theorem C23_minimal_stash (n : Nat) (page : UInt64) (ls : List ListInfo) (hn : n ≠ 0)
    (hls : ∀ l ∈ ls, l.h0 < n ∧ l.h1 < n ∧ l.len ≤ page ∧ l.index ≠ emptyIndex)
    (hsum : (ls.map (fun l => l.len.toNat)).sum + page.toNat < 2 ^ 64) :
    ∃ a, allocRun n page ls = .ok a ∧
      ∀ parts', IsAssignment page.toNat (ls.map (fun l => ⟨l.h0, l.h1, l.len.toNat⟩)) parts' →
        stashSize (ls.map (fun l => ⟨l.h0, l.h1, l.len.toNat⟩)) (a.parts ls.length) ≤
          stashSize (ls.map (fun l => ⟨l.h0, l.h1, l.len.toNat⟩)) parts' := by
  obtain ⟨a, h1, -, -, h4, -, h6, -⟩ := allocRun_spec n page ls hn hls hsum
  refine ⟨a, h1, ?_⟩
  intro parts' hA
  have e1 := stash_eq _ _ h4.length h4.split
  have e2 := stash_eq _ _ hA.length hA.split
  have := h6 parts' hA
  show stashSize (ls.map itemOf) _ ≤ stashSize (ls.map itemOf) _
  unfold itemOf at *
  omega

/-- Three buckets of 4 entries and 13 entries in lists: bucket 0 is the first choice of three lists,
bucket 2 is reachable from one list only, so that one entry more than the excess must be stashed. -/
def sampleLists : List ListInfo := [⟨0, 1, 3, 0⟩, ⟨0, 1, 4, 1⟩, ⟨0, 0, 2, 2⟩, ⟨1, 2, 4, 3⟩]

example : (3 : Nat) ≠ 0 ∧
    (∀ l ∈ sampleLists, l.h0 < 3 ∧ l.h1 < 3 ∧ l.len ≤ 4 ∧ l.index ≠ emptyIndex) ∧
    (sampleLists.map (fun l => l.len.toNat)).sum + (4 : UInt64).toNat < 2 ^ 64 := by decide

example : (match allocRun 3 4 sampleLists with
    | .ok a => (a.parts 4, a.stashed.map EdgePtr.index)
    | .error _ => ([], [])) = ([(0, 3), (3, 1), (1, 0), (0, 4)], [2]) := by
  set_option maxRecDepth 10000 in decide

end Verif.Tethys
