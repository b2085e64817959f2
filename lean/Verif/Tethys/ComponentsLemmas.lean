import Verif.Tethys.Components
import Verif.Tethys.GraphCut

/-! # Helper lemmas on connected components -/

namespace Verif.Tethys

/-- The component of an inner vertex -/
def Graph.comp (g : Graph) (i : Nat) : Option Nat := (g.vertices[i]?).map (·.component)

/-- Two inner vertices joined by an edge -/
def Adj (es : List Edge) (a b : Nat) : Prop :=
  ∃ e ∈ es, (e.start = .inner a ∧ e.stop = .inner b) ∨ (e.start = .inner b ∧ e.stop = .inner a)

theorem Adj.symm {es : List Edge} {a b : Nat} (h : Adj es a b) : Adj es b a := by
  obtain ⟨e, he, h⟩ := h
  exact ⟨e, he, h.symm⟩

/-- Two graphs that differ only by the components of the vertices -/
structure SameEdges (g g' : Graph) : Prop where
  state : g'.state = g.state
  edges : g'.edges = g.edges
  source : g'.source = g.source
  sink : g'.sink = g.sink
  parents : g'.parents = g.parents
  verts : g'.vertices.map (fun v => (v.inEdges, v.outEdges)) =
    g.vertices.map (fun v => (v.inEdges, v.outEdges))

theorem SameEdges.refl (g : Graph) : SameEdges g g := ⟨rfl, rfl, rfl, rfl, rfl, rfl⟩

theorem SameEdges.trans {a b c : Graph} (h : SameEdges a b) (h' : SameEdges b c) : SameEdges a c :=
  ⟨h'.1.trans h.1, h'.2.trans h.2, h'.3.trans h.3, h'.4.trans h.4, h'.5.trans h.5, h'.6.trans h.6⟩

theorem SameEdges.length {g g' : Graph} (h : SameEdges g g') :
    g'.vertices.length = g.vertices.length := by
  have := congrArg List.length h.verts
  simpa using this

theorem SameEdges.lookup {g g' : Graph} (h : SameEdges g g') {i : Nat} {vx : Vertex}
    (hv : g'.vertices[i]? = some vx) : ∃ vx0, g.vertices[i]? = some vx0 ∧
      vx0.inEdges = vx.inEdges ∧ vx0.outEdges = vx.outEdges := by
  have := congrArg (fun l => l[i]?) h.verts
  simp only [List.getElem?_map, hv, Option.map_some] at this
  cases h0 : g.vertices[i]? with
  | none => simp [h0] at this
  | some vx0 =>
    rw [h0] at this
    simp only [Option.map_some, Option.some.injEq, Prod.mk.injEq] at this
    exact ⟨vx0, rfl, this.1.symm, this.2.symm⟩

theorem SameEdges.wf {g g' : Graph} (h : SameEdges g g') (hw : WF g) : WF g' := by
  have hlen := h.length
  refine ⟨?_, ?_, ?_, ?_, ?_, ?_⟩
  · rw [h.edges, hlen]; exact hw.start
  · rw [h.edges, hlen]; exact hw.stop
  · rw [h.edges]; exact hw.direct
  · intro v vx hv
    rw [h.edges]
    cases v with
    | source => cases hv; rw [h.source]; exact hw.out .source _ rfl
    | sink => cases hv; rw [h.sink]; exact hw.out .sink _ rfl
    | inner i =>
      obtain ⟨vx0, h0, -, h2⟩ := h.lookup (vertex_inner_ok.mp hv)
      rw [← h2]
      exact hw.out _ vx0 (vertex_inner_ok.mpr h0)
  · intro v vx hv
    rw [h.edges]
    cases v with
    | source => cases hv; rw [h.source]; exact hw.inc .source _ rfl
    | sink => cases hv; rw [h.sink]; exact hw.inc .sink _ rfl
    | inner i =>
      obtain ⟨vx0, h0, h1, -⟩ := h.lookup (vertex_inner_ok.mp hv)
      rw [← h1]
      exact hw.inc _ vx0 (vertex_inner_ok.mpr h0)
  · rw [h.parents]; exact hw.psource

theorem setComponent_sameEdges (g : Graph) (i c : Nat) : SameEdges g (g.setComponent i c) := by
  refine ⟨rfl, rfl, rfl, rfl, rfl, ?_⟩
  apply List.ext_getElem?
  intro j
  simp only [Graph.setComponent, List.getElem?_map, List.getElem?_modify]
  cases g.vertices[j]? with
  | none => simp
  | some v => by_cases h : i = j <;> simp [h]

theorem setComponent_comp (g : Graph) (i c j : Nat) (hi : i < g.vertices.length) :
    (g.setComponent i c).comp j = if j = i then some c else g.comp j := by
  simp only [Graph.setComponent, Graph.comp, List.getElem?_modify]
  by_cases h : j = i
  · subst h
    simp [List.getElem?_eq_getElem hi]
  · simp only [if_neg h, if_neg (Ne.symm h)]
    cases g.vertices[j]? <;> simp

/-- Invariant while the component `ci` is explored. `D` is the list of its vertices so far. -/
structure CompInv (g0 g : Graph) (ci : Nat) (D queue : List Nat) : Prop where
  same : SameEdges g0 g
  nodup : D.Nodup
  comp : ∀ i, i ∈ D ↔ g.comp i = some ci
  queue : ∀ i ∈ queue, i ∈ D

theorem D_lt {g0 g : Graph} {ci : Nat} {D queue : List Nat} (h : CompInv g0 g ci D queue) :
    ∀ i ∈ D, i < g.vertices.length := by
  intro i hi
  have := (h.comp i).mp hi
  unfold Graph.comp at this
  by_contra hge
  rw [List.getElem?_eq_none (by omega)] at this
  simp at this

theorem D_length {g0 g : Graph} {ci : Nat} {D queue : List Nat} (h : CompInv g0 g ci D queue) :
    D.length ≤ g.vertices.length := by
  have hsub : D ⊆ List.range g.vertices.length := by
    intro i hi; exact List.mem_range.mpr (D_lt h i hi)
  have := (List.Nodup.subperm h.nodup hsub).length_le
  simpa using this

theorem scanComponent_spec {g0 : Graph} (hw : WF g0) (ci : Nat) (hci : 0 < ci) (recip : Bool)
    (ptrs : List EdgePtr) (g : Graph) (D queue : List Nat)
    (hp : ∀ p ∈ ptrs, ∃ e, g0.edges[p.index]? = some e) (hI : CompInv g0 g ci D queue) :
    ∃ g' new, Graph.scanComponent ci recip ptrs g queue = .ok (g', new ++ queue) ∧
      CompInv g0 g' ci (new ++ D) (new ++ queue) ∧
      (∀ i, g'.comp i = if i ∈ new then some ci else g.comp i) ∧
      (∀ i ∈ new, g.comp i = some 0) ∧
      ∀ p ∈ ptrs, ∀ e, g0.edges[p.index]? = some e → ∀ i, e.head recip = .inner i →
        g'.comp i ≠ some 0 := by
  induction ptrs generalizing g D queue with
  | nil => exact ⟨g, [], rfl, hI, by simp, by simp, by simp⟩
  | cons p ps ih =>
    obtain ⟨e, he⟩ := hp p (List.mem_cons_self ..)
    have hps := fun q hq => hp q (List.mem_cons_of_mem _ hq)
    rw [Graph.scanComponent, edge_ok (by rw [hI.same.edges]; exact he)]
    simp only
    have skip : (∀ i, e.head recip = .inner i → g.comp i ≠ some 0) →
        ∃ g' new, Graph.scanComponent ci recip ps g queue = .ok (g', new ++ queue) ∧
          CompInv g0 g' ci (new ++ D) (new ++ queue) ∧
          (∀ i, g'.comp i = if i ∈ new then some ci else g.comp i) ∧
          (∀ i ∈ new, g.comp i = some 0) ∧
          ∀ q ∈ p :: ps, ∀ e, g0.edges[q.index]? = some e → ∀ i, e.head recip = .inner i →
            g'.comp i ≠ some 0 := by
      intro hskip
      obtain ⟨g', new, h1, h2, h3, h4, h5⟩ := ih g D queue hps hI
      refine ⟨g', new, h1, h2, h3, h4, ?_⟩
      intro q hq e' he' i hi
      rcases List.mem_cons.mp hq with rfl | hq
      · rw [he] at he'
        cases he'
        rw [h3 i]
        split
        · simp; omega
        · exact hskip i hi
      · exact h5 q hq e' he' i hi
    cases hh : e.head recip with
    | source => exact skip (by simp [hh])
    | sink => exact skip (by simp [hh])
    | inner i =>
      simp only
      obtain ⟨vx, hvx⟩ := vertex_ok (hI.same.wf hw) (e := e)
        (by rw [hI.same.edges]; exact List.mem_of_getElem? he) recip
      rw [hh] at hvx
      rw [hvx]
      simp only
      have hc : g.comp i = some vx.component := by
        rw [vertex_inner_ok] at hvx; simp [Graph.comp, hvx]
      by_cases h0 : vx.component = 0
      · rw [if_pos h0]
        have hil : i < g.vertices.length := by
          rw [vertex_inner_ok] at hvx
          exact (List.getElem?_eq_some_iff.mp hvx).1
        have hiD : i ∉ D := by
          intro h
          have := (hI.comp i).mp h
          rw [hc, h0] at this
          simp at this
          omega
        have hI' : CompInv g0 (g.setComponent i ci) ci (i :: D) (i :: queue) := by
          refine ⟨hI.same.trans (setComponent_sameEdges _ _ _),
            List.nodup_cons.mpr ⟨hiD, hI.nodup⟩, ?_, ?_⟩
          · intro j
            rw [setComponent_comp _ _ _ _ hil, List.mem_cons, hI.comp j]
            by_cases hj : j = i <;> simp [hj]
          · intro j hj
            rcases List.mem_cons.mp hj with rfl | hj
            · exact List.mem_cons_self ..
            · exact List.mem_cons_of_mem _ (hI.queue j hj)
        obtain ⟨g', new, h1, h2, h3, h4, h5⟩ := ih (g.setComponent i ci) (i :: D) (i :: queue) hps hI'
        have hsc := setComponent_comp g i ci
        refine ⟨g', new ++ [i], by simpa using h1, by simpa using h2, ?_, ?_, ?_⟩
        · intro j
          rw [h3 j, hsc j hil]
          by_cases a : j ∈ new <;> by_cases b : j = i <;> simp [a, b]
        · intro j hj
          rcases List.mem_append.mp hj with hj | hj
          · have := h4 j hj
            rw [hsc j hil] at this
            split at this
            · simp at this; omega
            · exact this
          · simp at hj; subst hj; rw [hc, h0]
        · intro q hq e' he' j hj
          rcases List.mem_cons.mp hq with rfl | hq
          · rw [he] at he'
            cases he'
            rw [hh] at hj
            cases hj
            rw [h3 i, hsc i hil]
            simp
            omega
          · exact h5 q hq e' he' j hj
      · rw [if_neg h0]
        apply skip
        intro j hj
        rw [hh] at hj
        cases hj
        rw [hc]
        simpa using h0

/-- Edges join vertices of the same component, except between the component being explored and the
unexplored vertices, through a vertex of the queue. -/
def Front (es : List Edge) (g : Graph) (ci : Nat) (queue : List Nat) : Prop :=
  ∀ a b, Adj es a b → g.comp a = g.comp b ∨ (a ∈ queue ∧ g.comp a = some ci ∧ g.comp b = some 0) ∨
    (b ∈ queue ∧ g.comp b = some ci ∧ g.comp a = some 0)

theorem componentLoop_spec {g0 : Graph} (hw : WF g0) (ci : Nat) (hci : 0 < ci) (fuel : Nat)
    (g : Graph) (D queue : List Nat) (size : Nat) (hI : CompInv g0 g ci D queue)
    (hF : Front g0.edges g ci queue) (hsize : size + queue.length = D.length)
    (hle : ∀ i c, g.comp i = some c → c ≤ ci)
    (hfuel : queue.length + (g0.vertices.length - D.length) < fuel) :
    ∃ g' D', Graph.componentLoop ci fuel g queue size = .ok (g', D'.length) ∧
      CompInv g0 g' ci D' [] ∧ Front g0.edges g' ci [] ∧ (∀ i ∈ D, i ∈ D') ∧
      (∀ i c, g'.comp i = some c → c ≤ ci) ∧
      (∀ i, i ∉ D' → g'.comp i = g.comp i) := by
  induction fuel generalizing g D queue size with
  | zero => omega
  | succ fuel ih =>
    cases queue with
    | nil =>
      refine ⟨g, D, ?_, hI, hF, fun i h => h, hle, fun i _ => rfl⟩
      simp only [List.length_nil, Nat.add_zero] at hsize
      rw [Graph.componentLoop, hsize]
    | cons v queue =>
      have hvD := hI.queue v (List.mem_cons_self ..)
      have hvl := D_lt hI v hvD
      rw [Graph.componentLoop, vertex_inner hvl]
      simp only
      have hwg := hI.same.wf hw
      have hI0 : CompInv g0 g ci D queue :=
        ⟨hI.same, hI.nodup, hI.comp, fun i hi => hI.queue i (List.mem_cons_of_mem _ hi)⟩
      have hout : ∀ p, p ∈ (g.vertices[v]).outEdges ↔ p.recip = false ∧
          ∃ e, g0.edges[p.index]? = some e ∧ startsAt (.inner v) e = true := by
        intro p; rw [hwg.out (.inner v) _ (vertex_inner hvl), mem_idxs, hI.same.edges]
      have hin : ∀ p, p ∈ (g.vertices[v]).inEdges ↔ p.recip = false ∧
          ∃ e, g0.edges[p.index]? = some e ∧ stopsAt (.inner v) e = true := by
        intro p; rw [hwg.inc (.inner v) _ (vertex_inner hvl), mem_idxs, hI.same.edges]
      obtain ⟨g1, n1, a1, a2, a3, a4, a5⟩ := scanComponent_spec hw ci hci false
        (g.vertices[v]).outEdges g D queue
        (fun p hp => by obtain ⟨-, e, he, -⟩ := (hout p).mp hp; exact ⟨e, he⟩) hI0
      rw [a1]
      simp only
      obtain ⟨g2, n2, b1, b2, b3, b4, b5⟩ := scanComponent_spec hw ci hci true
        (g.vertices[v]).inEdges g1 (n1 ++ D) (n1 ++ queue)
        (fun p hp => by obtain ⟨-, e, he, -⟩ := (hin p).mp hp; exact ⟨e, he⟩) a2
      rw [b1]
      simp only
      have hcomp2 : ∀ i, g2.comp i = if i ∈ n2 ∨ i ∈ n1 then some ci else g.comp i := by
        intro i
        rw [b3 i, a3 i]
        by_cases h1 : i ∈ n2 <;> by_cases h2 : i ∈ n1 <;> simp [h1, h2]
      have hnew0 : ∀ i, i ∈ n2 ∨ i ∈ n1 → g.comp i = some 0 := by
        rintro i (h | h)
        · have := b4 i h
          rw [a3 i] at this
          split at this
          · simp at this; omega
          · exact this
        · exact a4 i h
      have hvci : g2.comp v = some ci := by
        rw [hcomp2 v]
        split
        · rfl
        · exact (hI.comp v).mp hvD
      -- the neighbours of `v` are not unexplored any more
      have hnb : ∀ b, Adj g0.edges v b → g2.comp b ≠ some 0 := by
        rintro b ⟨e, he, h⟩
        obtain ⟨k, hk⟩ := List.mem_iff_getElem?.mp he
        rcases h with ⟨h1, h2⟩ | ⟨h1, h2⟩
        · have := a5 ⟨false, k⟩ ((hout _).mpr ⟨rfl, e, hk, by simp [startsAt, h1]⟩) e hk b
            (by simp [Edge.head, h2])
          rw [b3 b]
          split
          · simp; omega
          · exact this
        · exact b5 ⟨false, k⟩ ((hin _).mpr ⟨rfl, e, hk, by simp [stopsAt, h2]⟩) e hk b
            (by simp [Edge.head, h1])
      have hF2 : Front g0.edges g2 ci (n2 ++ (n1 ++ queue)) := by
        -- an edge with an unexplored end, seen from the other end
        have key : ∀ a b, Adj g0.edges a b →
            (a ∈ v :: queue ∧ g.comp a = some ci ∧ g.comp b = some 0) →
            g2.comp a = g2.comp b ∨
            (a ∈ n2 ++ (n1 ++ queue) ∧ g2.comp a = some ci ∧ g2.comp b = some 0) := by
          intro a b hab ⟨h1, h2, h3⟩
          have ha2 : g2.comp a = some ci := by rw [hcomp2 a]; split <;> simp [h2]
          by_cases hb : b ∈ n2 ∨ b ∈ n1
          · left; rw [ha2, hcomp2 b, if_pos hb]
          · right
            have hb2 : g2.comp b = some 0 := by rw [hcomp2 b, if_neg hb, h3]
            refine ⟨?_, ha2, hb2⟩
            rcases List.mem_cons.mp h1 with rfl | h1
            · exact absurd hb2 (hnb b hab)
            · simp [h1]
        intro a b hab
        rcases hF a b hab with h | h | h
        · by_cases ha : a ∈ n2 ∨ a ∈ n1 <;> by_cases hb : b ∈ n2 ∨ b ∈ n1
          · left; rw [hcomp2 a, hcomp2 b, if_pos ha, if_pos hb]
          · right; left
            refine ⟨by simp; tauto, by rw [hcomp2 a, if_pos ha], ?_⟩
            rw [hcomp2 b, if_neg hb, ← h]
            exact hnew0 a ha
          · right; right
            refine ⟨by simp; tauto, by rw [hcomp2 b, if_pos hb], ?_⟩
            rw [hcomp2 a, if_neg ha, h]
            exact hnew0 b hb
          · left; rw [hcomp2 a, hcomp2 b, if_neg ha, if_neg hb, h]
        · rcases key a b hab h with h | h
          · exact Or.inl h
          · exact Or.inr (Or.inl h)
        · rcases key b a hab.symm h with h | h
          · exact Or.inl h.symm
          · exact Or.inr (Or.inr h)
      have hle2 : ∀ i c, g2.comp i = some c → c ≤ ci := by
        intro i c hic
        rw [hcomp2 i] at hic
        split at hic
        · simp at hic; omega
        · exact hle i c hic
      have hlen := D_length b2
      rw [b2.same.length] at hlen
      obtain ⟨g', D', c1, c2, c3, c4, c5, c6⟩ := ih g2 (n2 ++ (n1 ++ D)) (n2 ++ (n1 ++ queue))
        (size + 1) b2 hF2
        (by simp only [List.length_append, List.length_cons] at hsize ⊢; omega) hle2
        (by simp only [List.length_append, List.length_cons] at hfuel hlen ⊢; omega)
      refine ⟨g', D', c1, c2, c3, fun i hi => c4 i (by simp [hi]), c5, ?_⟩
      intro i hi
      rw [c6 i hi, hcomp2 i, if_neg]
      intro h
      exact hi (c4 i (by simp; tauto))

/-- Every edge stays within a component. -/
def Closed (g : Graph) : Prop := ∀ a b, Adj g.edges a b → g.comp a = g.comp b

theorem componentsFrom_spec {g0 : Graph} (hw : WF g0) (vis : List Nat)
    (hvis : ∀ i ∈ vis, i < g0.vertices.length) (g : Graph) (ci : Nat) (hci : 0 < ci)
    (hs : SameEdges g0 g) (hcl : Closed g) (hle : ∀ i c, g.comp i = some c → c < ci) :
    ∃ g' ci', Graph.componentsFrom vis g ci = .ok (g', ci') ∧ SameEdges g0 g' ∧ Closed g' ∧
      0 < ci' ∧ ∀ i c, g'.comp i = some c → c < ci' := by
  induction vis generalizing g ci with
  | nil => exact ⟨g, ci, rfl, hs, hcl, hci, hle⟩
  | cons v vis ih =>
    have hvl : v < g.vertices.length := by rw [hs.length]; exact hvis v (List.mem_cons_self ..)
    have hvis' := fun i hi => hvis i (List.mem_cons_of_mem _ hi)
    rw [Graph.componentsFrom, vertex_inner hvl]
    simp only
    by_cases hc : (g.vertices[v]).component ≠ 0
    · rw [if_pos hc]
      exact ih hvis' g ci hci hs hcl hle
    rw [if_neg hc]
    have hv0 : g.comp v = some 0 := by
      simp only [Graph.comp, List.getElem?_eq_getElem hvl, Option.map_some, Option.some.injEq]
      simpa using hc
    have hsc := fun j => setComponent_comp g v ci j hvl
    have hI : CompInv g0 (g.setComponent v ci) ci [v] [v] := by
      refine ⟨hs.trans (setComponent_sameEdges _ _ _), by simp, ?_, by simp⟩
      intro i
      rw [hsc i]
      by_cases hiv : i = v
      · simp [hiv]
      · rw [if_neg hiv]
        simp only [List.mem_singleton, hiv, false_iff]
        intro h
        have := hle i ci h
        omega
    have hF : Front g0.edges (g.setComponent v ci) ci [v] := by
      intro a b hab
      have hab' := hcl a b (by rw [hs.edges]; exact hab)
      rw [hsc a, hsc b]
      by_cases ha : a = v <;> by_cases hb : b = v <;> simp only [ha, hb, if_true, if_false]
      · exact Or.inl trivial
      · right; left
        refine ⟨by simp, trivial, ?_⟩
        rw [← hab', ha]; exact hv0
      · right; right
        refine ⟨by simp, trivial, ?_⟩
        rw [hab', hb]; exact hv0
      · exact Or.inl hab'
    have hle1 : ∀ i c, (g.setComponent v ci).comp i = some c → c ≤ ci := by
      intro i c h
      rw [hsc i] at h
      split at h
      · simp at h; omega
      · have := hle i c h; omega
    obtain ⟨g', D', h1, h2, h3, h4, h5, h6⟩ := componentLoop_spec hw ci hci (g.vertices.length + 2)
      (g.setComponent v ci) [v] [v] 0 hI hF (by simp) hle1 (by
        rw [hs.length]; simp; omega)
    rw [h1]
    simp only
    have hvD : v ∈ D' := h4 v (by simp)
    have hcl' : Closed g' := by
      intro a b hab
      rw [h2.same.edges] at hab
      rcases h3 a b hab with h | h | h
      · exact h
      · simp at h
      · simp at h
    by_cases hsz : D'.length = 1
    · rw [if_pos hsz]
      have hD : D' = [v] := by
        obtain ⟨x, hx⟩ := List.length_eq_one_iff.mp hsz
        rw [hx] at hvD ⊢
        simp at hvD
        rw [hvD]
      subst hD
      have hvl' : v < g'.vertices.length := by rw [h2.same.length, ← hs.length]; exact hvl
      have hsc' := fun j => setComponent_comp g' v 0 j hvl'
      apply ih hvis' _ ci hci (h2.same.trans (setComponent_sameEdges _ _ _))
      · intro a b hab
        have hab' : Adj g'.edges a b := hab
        have := hcl' a b hab'
        rw [hsc' a, hsc' b]
        have hiff : a = v ↔ b = v := by
          have ha := h2.comp a
          have hb := h2.comp b
          simp only [List.mem_singleton] at ha hb
          rw [ha, hb, this]
        by_cases ha : a = v
        · simp [ha, hiff.mp ha]
        · have hb : b ≠ v := fun h => ha (hiff.mpr h)
          simp [ha, hb, this]
      · intro i c h
        rw [hsc' i] at h
        split at h
        · simp at h; omega
        · rename_i hiv
          have h7 := h5 i c h
          rcases Nat.lt_or_ge c ci with h8 | h8
          · exact h8
          · have : c = ci := by omega
            subst this
            have := (h2.comp i).mpr h
            simp at this
            exact absurd this hiv
    · rw [if_neg hsz]
      apply ih hvis' g' (ci + 1) (by omega) h2.same hcl'
      intro i c h
      have := h5 i c h
      omega

/-- The result of `compute_connected_components` -/
structure Split (g0 g : Graph) : Prop where
  same : SameEdges g0 g
  closed : Closed g
  bound : ∀ i c, g.comp i = some c → c ≤ g.nComponents

theorem computeConnectedComponents_spec {g : Graph} (hf : Fresh g) :
    ∃ g', g.computeConnectedComponents = .ok g' ∧ Split g g' := by
  have hc0 : ∀ i c, g.comp i = some c → c = 0 := by
    intro i c h
    unfold Graph.comp at h
    cases hv : g.vertices[i]? with
    | none => simp [hv] at h
    | some vx =>
      rw [hv] at h
      simp at h
      rw [← h]
      exact hf.comps _ vx (vertex_inner_ok.mpr hv)
  have hsome : ∀ a b, Adj g.edges a b → ∃ c, g.comp a = some c := by
    rintro a b ⟨e, he, h⟩
    have hlt : a < g.vertices.length := by
      rcases h with ⟨h, -⟩ | ⟨-, h⟩
      · rcases hf.wf.start e he with h' | ⟨i, hi, h'⟩ <;> rw [h] at h' <;> cases h'
        exact hi
      · rcases hf.wf.stop e he with h' | ⟨i, hi, h'⟩ <;> rw [h] at h' <;> cases h'
        exact hi
    exact ⟨_, by simp [Graph.comp, List.getElem?_eq_getElem hlt]; rfl⟩
  obtain ⟨g', ci, h1, h2, h3, h4, h5⟩ := componentsFrom_spec hf.wf (List.range g.vertices.length)
    (fun i hi => List.mem_range.mp hi) g 1 (by omega) (SameEdges.refl g)
    (by
      intro a b hab
      obtain ⟨ca, ha⟩ := hsome a b hab
      obtain ⟨cb, hb⟩ := hsome b a hab.symm
      rw [ha, hb, hc0 a ca ha, hc0 b cb hb])
    (by intro i c h; rw [hc0 i c h]; omega)
  refine ⟨{ g' with nComponents := ci - 1 }, ?_, ⟨h2.1, h2.2, h2.3, h2.4, h2.5, h2.6⟩, h3, ?_⟩
  · unfold Graph.computeConnectedComponents
    rw [h1]
  · intro i c h
    have := h5 i c h
    show c ≤ ci - 1
    omega

end Verif.Tethys
