import Verif.Tethys.ParallelLemmas

/-! # Helper lemmas: sums over the edges of a vertex, edges of a built graph -/

namespace Verif.Tethys

open Spec

theorem sumEdges_zipIdx (g : Graph) (f : Edge → UInt64) (P : Edge → Bool) (suf : List Edge) (k : Nat)
    (acc : UInt64) (h : ∀ i e, suf[i]? = some e → g.edges[k + i]? = some e) :
    ∃ r, g.sumEdges f (((suf.zipIdx k).filter (fun x => P x.1)).map (fun x => ⟨false, x.2⟩)) acc
        = .ok r ∧
      r.toNat = (acc.toNat + ((suf.filter P).map (fun e => (f e).toNat)).sum) % 2 ^ 64 := by
  induction suf generalizing k acc with
  | nil => exact ⟨acc, rfl, by simp⟩
  | cons e es ih =>
    have h' : ∀ i e, es[i]? = some e → g.edges[k + 1 + i]? = some e := by
      intro i x hx
      have := h (i + 1) x (by simpa using hx)
      rwa [show k + 1 + i = k + (i + 1) by omega]
    simp only [List.zipIdx_cons, List.filter_cons]
    by_cases hP : P e
    · simp only [hP, if_true, List.map_cons, Graph.sumEdges]
      have he : g.edges[k]? = some e := by simpa using h 0 e rfl
      rw [edge_ok (p := ⟨false, k⟩) he]
      obtain ⟨r, h1, h2⟩ := ih (k + 1) (acc + f e) h'
      refine ⟨r, h1, ?_⟩
      rw [h2, UInt64.toNat_add, List.sum_cons, Nat.mod_add_mod]
      congr 1
      omega
    · simp only [hP, Bool.false_eq_true, if_false]
      exact ih (k + 1) acc h'

theorem sumEdges_idxs (g : Graph) (f : Edge → UInt64) (P : Edge → Bool) (acc : UInt64) :
    ∃ r, g.sumEdges f (idxs P g.edges) acc = .ok r ∧
      r.toNat = (acc.toNat + ((g.edges.filter P).map (fun e => (f e).toNat)).sum) % 2 ^ 64 :=
  sumEdges_zipIdx g f P g.edges 0 acc (fun i e h => by simpa using h)

/-- The edge made by a call -/
def BuildOp.edgeOf : BuildOp → UInt64 × UInt64 × VertexPtr × VertexPtr
  | .edge vi cap s t => (vi, cap, .inner s, .inner t)
  | .fromSource vi cap t => (vi, cap, .source, .inner t)
  | .toSink vi cap s => (vi, cap, .inner s, .sink)

theorem apply_skel {g g' : Graph} {op : BuildOp} (h : op.apply g = .ok g') :
    g'.edges.map Edge.skel = g.edges.map Edge.skel ++ [op.edgeOf] ∧
      g'.vertices.length = g.vertices.length := by
  cases op with
  | edge vi cap s t =>
    simp only [BuildOp.apply, Graph.addEdge] at h
    split at h
    · cases h
    · split at h
      · cases h
      · split at h
        · cases h
        · cases h; simp [Edge.skel, Edge.new, BuildOp.edgeOf]
  | fromSource vi cap t =>
    simp only [BuildOp.apply, Graph.addEdgeFromSource] at h
    split at h
    · cases h
    · split at h
      · cases h
      · cases h; simp [Edge.skel, Edge.new, BuildOp.edgeOf]
  | toSink vi cap s =>
    simp only [BuildOp.apply, Graph.addEdgeToSink] at h
    split at h
    · cases h
    · split at h
      · cases h
      · cases h; simp [Edge.skel, Edge.new, BuildOp.edgeOf]

theorem buildFrom_skel {g g' : Graph} {ops : List BuildOp} (h : buildFrom g ops = .ok g') :
    g'.edges.map Edge.skel = g.edges.map Edge.skel ++ ops.map BuildOp.edgeOf ∧
      g'.vertices.length = g.vertices.length := by
  induction ops generalizing g with
  | nil => cases h; simp
  | cons op ops ih =>
    simp only [buildFrom] at h
    split at h
    · cases h
    · rename_i g1 h1
      obtain ⟨a, b⟩ := apply_skel h1
      obtain ⟨c, d⟩ := ih h
      rw [c, a, d, b]
      simp

theorem build_skel {n : Nat} {ops : List BuildOp} {g : Graph} (h : build n ops = .ok g) :
    g.edges.map Edge.skel = ops.map BuildOp.edgeOf ∧ g.vertices.length = n := by
  unfold build at h
  split at h
  · cases h
  · rename_i g0 h0
    unfold Graph.new at h0
    split at h0
    · cases h0
    · cases h0
      obtain ⟨a, b⟩ := buildFrom_skel h
      rw [a, b]
      simp

/-- The pipe of an edge -/
def skelPipe (x : UInt64 × UInt64 × VertexPtr × VertexPtr) : VertexPtr × VertexPtr × Nat :=
  (x.2.2.1, x.2.2.2, x.2.1.toNat)

theorem pipes_toFlow (es : List Edge) :
    (es.map toFlow).map FlowEdge.pipe = (es.map Edge.skel).map skelPipe := by
  simp [toFlow, FlowEdge.pipe, Edge.skel, skelPipe, Function.comp_def]

/-- The graph after the exchange of the two flows of each edge -/
def flipped (g : Graph) : Graph :=
  { g with edges := g.edges.map (fun e => { e with flow := e.recFlow, recFlow := 0 })
           state := .maxFlowComputed }

theorem transform_ok {g : Graph} (h : g.state = .residualComputed) :
    g.transformResidualToFlow = .ok (flipped g) := by
  unfold Graph.transformResidualToFlow
  rw [if_neg (by simp [h])]
  rfl

theorem network_flipped (g : Graph) : network (flipped g) = g.edges.map toFlow := by
  simp [network, flipped, toFlow, Function.comp_def]

theorem flipped_wf {g : Graph} (hw : WF g) : WF (flipped g) := by
  have hsk : (flipped g).edges.map Edge.skel = g.edges.map Edge.skel := by
    simp [flipped, Edge.skel, Function.comp_def]
  have hs : SameShape { g with state := .maxFlowComputed } (flipped g) := ⟨rfl, rfl, rfl, rfl, hsk, rfl⟩
  exact hs.wf ⟨hw.1, hw.2, hw.3, fun v vx hv => hw.4 v vx (by cases v <;> exact hv),
    fun v vx hv => hw.5 v vx (by cases v <;> exact hv), hw.6⟩ hw.6

/-- Everything about the flow of a graph with a maximal residual flow -/
theorem MaxResidual.facts {n : Nat} {ops : List BuildOp} {g g' : Graph} (hg : build n ops = .ok g)
    (h : MaxResidual g g') :
    g'.transformResidualToFlow = .ok (flipped g') ∧
    (network (flipped g')).map FlowEdge.pipe = (ops.map BuildOp.edgeOf).map skelPipe ∧
    IsFlow (network (flipped g')) ∧
    inflow (network (flipped g')) .source = 0 ∧ outflow (network (flipped g')) .sink = 0 ∧
    ∀ fs, IsFlow fs → fs.map FlowEdge.pipe = (ops.map BuildOp.edgeOf).map skelPipe →
      value fs ≤ value (network (flipped g')) := by
  have hfl := isFlow_toFlow h.balanced h.conserved
  have hpipe : (g'.edges.map toFlow).map FlowEdge.pipe = (ops.map BuildOp.edgeOf).map skelPipe := by
    rw [pipes_toFlow, h.skel, (build_skel hg).1]
  refine ⟨transform_ok h.state, ?_, ?_, ?_, ?_, ?_⟩
  · rw [network_flipped]; exact hpipe
  · rw [network_flipped]; exact hfl
  · rw [network_flipped]
    unfold inflow
    rw [List.filter_eq_nil_iff.mpr]
    · rfl
    · intro e he
      obtain ⟨x, hx, rfl⟩ := List.mem_map.mp he
      exact fun hd => stop_ne_source h.wf hx (of_decide_eq_true hd)
  · rw [network_flipped]
    unfold outflow
    rw [List.filter_eq_nil_iff.mpr]
    · rfl
    · intro e he
      obtain ⟨x, hx, rfl⟩ := List.mem_map.mp he
      exact fun hd => start_ne_sink h.wf hx (of_decide_eq_true hd)
  · intro fs hfs hp
    rw [network_flipped]
    obtain ⟨S, hS⟩ := h.cut
    exact hS.maximal h.balanced hfl fs hfs (hp.trans hpipe.symm)

/-- The accumulated flow of a vertex -/
theorem sum_network {g : Graph} (P : Edge → Bool) (Q : FlowEdge → Bool)
    (h : ∀ e : Edge, Q ⟨e.start, e.stop, e.capacity.toNat, e.flow.toNat⟩ = P e) :
    (((network g).filter Q).map FlowEdge.flow).sum =
      ((g.edges.filter P).map (fun e => e.flow.toNat)).sum := by
  unfold network
  induction g.edges with
  | nil => rfl
  | cons e es ih =>
    simp only [List.map_cons, List.filter_cons, h]
    split
    · simp only [List.map_cons, List.sum_cons, ih]
    · exact ih

/-! ## Reachable states of the parallel computation -/

def Live (s : Par) : Prop := ∀ (k : Nat) j, s.jobs[k]? = some j → ∀ c, j ≠ .update c []

theorem parInit_spec {g : Graph} (hf : Fresh g) :
    ∃ g0, g.computeConnectedComponents = .ok g0 ∧ Split g g0 ∧
      g.parInit = .ok ⟨g0, List.replicate (g0.nComponents + 1) .find⟩ ∧
      ParInv g0 ⟨g0, List.replicate (g0.nComponents + 1) .find⟩ g0.edges := by
  obtain ⟨g0, h1, h2⟩ := computeConnectedComponents_spec hf
  refine ⟨g0, h1, h2, ?_, ?_⟩
  · unfold Graph.parInit
    rw [if_neg (by simp [hf.state]), h1]
  · have hw0 := h2.same.wf hf.wf
    have hrep : ∀ (k : Nat) j, (List.replicate (g0.nComponents + 1) Job.find)[k]? = some j →
        j = .find := by
      intro k j h
      rw [List.getElem?_replicate] at h
      split at h <;> simp at h
      exact h.symm
    refine ⟨⟨rfl, rfl, rfl, rfl, rfl, rfl⟩, hw0.psource, by simp, rfl, ?_, ?_, ?_, ?_, ?_⟩
    · rw [h2.same.edges]; exact hf.balanced
    · intro i
      rw [h2.same.edges]
      exact excess_zero (fun e he => (hf.flows e he).2) _
    · intro i k j _ hj
      rw [hrep k j hj]; rfl
    · intro k j hj p hp
      rw [hrep k j hj] at hp
      simp [Job.restPath] at hp
    · intro k hj
      have := hrep k _ hj
      cases this

theorem parSteps_spec {g0 : Graph} (hw : WF g0) (hcl : Closed g0) {s0 : Par}
    (h0 : ParInv g0 s0 g0.edges) (hl0 : Live s0) {n : Nat} {s : Par} (h : Par.Steps n s0 s) :
    ∃ star, ParInv g0 s star ∧ Live s ∧
      workLeft g0 s star + n ≤ workLeft g0 s0 g0.edges := by
  induction h with
  | refl => exact ⟨_, h0, hl0, by simp⟩
  | tail hs hstep ih =>
    obtain ⟨star, hI, hL, hm⟩ := ih h0 hl0
    cases hstep with
    | mk hj hnd hok =>
      obtain ⟨g', j', star', h1, h2, h3, h4⟩ := parStep_spec hw hcl hI hj hnd (hL _ _ hj)
      rw [h1] at hok
      cases hok
      refine ⟨star', h3, ?_, ?_⟩
      · intro k j hk c
        rcases getElem?_set_cases hk with ⟨_, rfl⟩ | ⟨_, hk⟩
        · exact h2 c
        · exact hL k j hk c
      · push_cast
        omega

end Verif.Tethys
