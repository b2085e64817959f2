import Verif.Tethys.SumLemmas

/-!
# C19, C20, C21: the maximum flow of the allocation graph
-/

namespace Verif.Tethys

open Spec

/-- The pipe that a call adds to the network -/
def pipeOf : BuildOp → VertexPtr × VertexPtr × Nat
  | .edge _ cap s t => (.inner s, .inner t, cap.toNat)
  | .fromSource _ cap t => (.source, .inner t, cap.toNat)
  | .toSink _ cap s => (.inner s, .sink, cap.toNat)

theorem pipeOf_eq (ops : List BuildOp) : (ops.map BuildOp.edgeOf).map skelPipe = ops.map pipeOf := by
  rw [List.map_map]
  apply List.map_congr_left
  intro op _
  cases op <;> rfl

/-! ## C19 -/

/-- **C19**: on every graph made by the public functions, `compute_residual_maxflow` followed by
`transform_residual_to_flow` succeed and leave a flow on the network that was built: no edge carries
more than its capacity, each inner vertex sends what it receives, and what leaves the source is what
enters the sink (nothing enters the source or leaves the sink). -/
theorem C19_valid_flow (n : Nat) (ops : List BuildOp) (g : Graph) (hg : build n ops = .ok g) :
    ∃ g' g'', g.computeResidualMaxflow = .ok g' ∧ g'.transformResidualToFlow = .ok g'' ∧
      (network g'').map FlowEdge.pipe = ops.map pipeOf ∧ IsFlow (network g'') ∧
      inflow (network g'') .source = 0 ∧ outflow (network g'') .sink = 0 ∧
      outflow (network g'') .source = inflow (network g'') .sink := by
  obtain ⟨g', h1, h2, -⟩ := computeResidualMaxflow_spec (fresh_build hg)
  obtain ⟨a, b, c, d, e, -⟩ := h2.facts hg
  rw [pipeOf_eq] at b
  exact ⟨g', flipped g', h1, a, b, c, d, e, value_eq_sink _ c d e⟩

/-- **C19**, the accessors: `get_vertex_in_flow` and `get_vertex_out_flow` succeed and agree on
every inner vertex, even where the sums wrap. -/
theorem C19_vertex_flows (n : Nat) (ops : List BuildOp) (g : Graph) (hg : build n ops = .ok g) :
    ∃ g' g'', g.computeResidualMaxflow = .ok g' ∧ g'.transformResidualToFlow = .ok g'' ∧
      ∀ i < n, ∃ r, g''.vertexInFlow (.inner i) = .ok r ∧ g''.vertexOutFlow (.inner i) = .ok r ∧
        r.toNat = inflow (network g'') (.inner i) % 2 ^ 64 := by
  obtain ⟨g', h1, h2, hv, -⟩ := computeResidualMaxflow_spec (fresh_build hg)
  obtain ⟨a, -, c, -⟩ := h2.facts hg
  refine ⟨g', flipped g', h1, a, ?_⟩
  intro i hi
  have hw := flipped_wf h2.wf
  have hlt : i < (flipped g').vertices.length := by
    show i < g'.vertices.length
    rw [hv, (build_skel hg).2]; exact hi
  have hvx := vertex_inner hlt
  obtain ⟨r, r1, r2⟩ := sumEdges_idxs (flipped g') (·.flow) (stopsAt (.inner i)) 0
  obtain ⟨q, q1, q2⟩ := sumEdges_idxs (flipped g') (·.flow) (startsAt (.inner i)) 0
  have e1 := sum_network (g := flipped g') (stopsAt (.inner i)) (fun e => e.stop = .inner i)
    (fun e => rfl)
  have e2 := sum_network (g := flipped g') (startsAt (.inner i)) (fun e => e.start = .inner i)
    (fun e => rfl)
  have hc := c.conserved i
  unfold inflow outflow at hc
  rw [← e1] at r2
  rw [← e2, ← hc] at q2
  have : q = r := UInt64.toNat_inj.mp (by rw [q2, r2])
  subst this
  refine ⟨q, ?_, ?_, ?_⟩
  · unfold Graph.vertexInFlow
    rw [if_neg (by simp [flipped]), hvx]
    simp only
    rw [hw.inc _ _ hvx]
    exact r1
  · unfold Graph.vertexOutFlow
    rw [if_neg (by simp [flipped]), hvx]
    simp only
    rw [hw.out _ _ hvx]
    exact q1
  · rw [r2]
    simp [inflow]

/-! ## C20 -/

/-- **C20**: the computation terminates (it returns within the bound given to the loops: one
augmentation for each unit of capacity, one visit of each vertex for each search) and its flow has
the largest value among all the flows of the network that was built. -/
theorem C20_maximal (n : Nat) (ops : List BuildOp) (g : Graph) (hg : build n ops = .ok g) :
    ∃ g' g'', g.computeResidualMaxflow = .ok g' ∧ g'.transformResidualToFlow = .ok g'' ∧
      ∀ fs : List FlowEdge, fs.map FlowEdge.pipe = ops.map pipeOf → IsFlow fs →
        value fs ≤ value (network g'') := by
  obtain ⟨g', h1, h2, -⟩ := computeResidualMaxflow_spec (fresh_build hg)
  obtain ⟨a, -, -, -, -, f⟩ := h2.facts hg
  rw [pipeOf_eq] at f
  exact ⟨g', flipped g', h1, a, fun fs hp hf => f fs hf hp⟩

/-- **C20**, `get_flow`: it returns the value of the flow as a 64-bit number. -/
theorem C20_get_flow (n : Nat) (ops : List BuildOp) (g : Graph) (hg : build n ops = .ok g) :
    ∃ g' g'' r, g.computeResidualMaxflow = .ok g' ∧ g'.transformResidualToFlow = .ok g'' ∧
      g''.getFlow = .ok r ∧ r.toNat = outflow (network g'') .source % 2 ^ 64 ∧
      (r.toNat : Int) = value (network g'') % 2 ^ 64 := by
  obtain ⟨g', h1, h2, -⟩ := computeResidualMaxflow_spec (fresh_build hg)
  obtain ⟨a, -, -, d, -⟩ := h2.facts hg
  have hw := flipped_wf h2.wf
  obtain ⟨r, r1, r2⟩ := sumEdges_idxs (flipped g') (·.flow) (startsAt .source) 0
  have e1 := sum_network (g := flipped g') (startsAt .source) (fun e => e.start = .source)
    (fun e => rfl)
  rw [← e1] at r2
  have hr : r.toNat = outflow (network (flipped g')) .source % 2 ^ 64 := by
    rw [r2]; simp [outflow]
  refine ⟨g', flipped g', r, h1, a, ?_, hr, ?_⟩
  · unfold Graph.getFlow
    rw [if_neg (by simp [flipped]), hw.out .source _ rfl]
    exact r1
  · unfold value
    rw [d, hr]
    push_cast
    simp

/-- **C20**, `get_edge_flow`: refused before the flow is computed; afterwards it returns the flow of the edge in the network, of
which C19 and C20 say that it is a maximum flow. -/
theorem C20_get_edge_flow (n : Nat) (ops : List BuildOp) (g : Graph) (hg : build n ops = .ok g) :
    (∀ p, g.getEdgeFlow p = .error .invalidArgument) ∧
    ∃ g' g'', g.computeResidualMaxflow = .ok g' ∧ g'.transformResidualToFlow = .ok g'' ∧
      (∀ p, g'.getEdgeFlow p = .error .invalidArgument) ∧
      ∀ (i : Nat) (e : FlowEdge), (network g'')[i]? = some e →
        ∃ r, g''.getEdgeFlow ⟨false, i⟩ = .ok r ∧ r.toNat = e.flow := by
  obtain ⟨g', h1, h2, -⟩ := computeResidualMaxflow_spec (fresh_build hg)
  obtain ⟨a, -⟩ := h2.facts hg
  have hs : g.state ≠ .maxFlowComputed := by
    intro h
    have := h1
    simp [Graph.computeResidualMaxflow, h] at this
  have hs' : g'.state ≠ .maxFlowComputed := by
    intro h
    have := a
    simp [Graph.transformResidualToFlow, h] at this
  refine ⟨fun p => by simp [Graph.getEdgeFlow, hs], g', flipped g', h1, a,
    fun p => by simp [Graph.getEdgeFlow, hs'], ?_⟩
  intro i e he
  unfold network at he
  rw [List.getElem?_map, Option.map_eq_some_iff] at he
  obtain ⟨x, hx, rfl⟩ := he
  refine ⟨x.flow, ?_, rfl⟩
  unfold Graph.getEdgeFlow Graph.edge
  rw [if_neg (by simp [flipped]), hx]

/-- **C20**, `get_flow`: when the capacities from the source add up to less than `2^64`, the value
returned is exactly the maximal value of a flow. -/
theorem C20_get_flow_exact (n : Nat) (ops : List BuildOp) (g : Graph) (hg : build n ops = .ok g)
    (hcap : ((ops.map pipeOf).map (fun p => if p.1 = .source then p.2.2 else 0)).sum < 2 ^ 64) :
    ∃ g' g'' r, g.computeResidualMaxflow = .ok g' ∧ g'.transformResidualToFlow = .ok g'' ∧
      g''.getFlow = .ok r ∧ (r.toNat : Int) = value (network g'') := by
  obtain ⟨g', g'', r, h1, h2, h3, h4, -⟩ := C20_get_flow n ops g hg
  obtain ⟨k', k'', k1, k2, k3, k4, k5, -⟩ := C19_valid_flow n ops g hg
  rw [h1] at k1; cases k1
  rw [h2] at k2; cases k2
  refine ⟨g', g'', r, h1, h2, h3, ?_⟩
  have hle : outflow (network g'') .source ≤
      ((ops.map pipeOf).map (fun p => if p.1 = .source then p.2.2 else 0)).sum := by
    rw [← k3]
    have hc := k4.cap
    unfold outflow
    generalize network g'' = es at hc
    induction es with
    | nil => simp
    | cons e es ih =>
      have := ih (fun x hx => hc x (List.mem_cons_of_mem _ hx))
      have h0 := hc e (List.mem_cons_self ..)
      simp only [List.map_cons, List.sum_cons, List.filter_cons, FlowEdge.pipe]
      by_cases h : e.start = .source
      · simp only [h, decide_true, if_true, List.map_cons, List.sum_cons]
        simp only [List.map_map] at this ⊢
        omega
      · simp only [h, decide_false, Bool.false_eq_true, if_false]
        simp only [List.map_map] at this ⊢
        omega
  rw [h4, Nat.mod_eq_of_lt (by omega)]
  unfold value
  rw [k5]
  simp

/-- A network with two paths, a parallel edge, a self loop and a useless edge back; its maximal
flow is 6. -/
def sampleOps : List BuildOp :=
  [.fromSource 0 5 0, .fromSource 0 4 2, .edge 1 3 0 1, .edge 2 1 0 1, .edge 3 2 1 1, .edge 4 4 2 1,
   .edge 5 2 1 2, .toSink 0 6 1, .toSink 0 0 2]

example : ∃ g, build 3 sampleOps = .ok g := ⟨_, rfl⟩

example : (match build 3 sampleOps with
    | .ok g => match g.computeResidualMaxflow with
      | .ok g' => match g'.transformResidualToFlow with
        | .ok g'' => (g''.getFlow, (network g'').map FlowEdge.flow)
        | .error f => (.error f, [])
      | .error f => (.error f, [])
    | .error f => (.error f, [])) = (.ok 6, [2, 4, 2, 0, 0, 4, 0, 6, 0]) := by
  set_option maxRecDepth 10000 in decide

example : ((sampleOps.map pipeOf).map (fun p => if p.1 = .source then p.2.2 else 0)).sum < 2 ^ 64 := by
  decide

/-! ## C21 -/

/-- **C21**, the split: `compute_connected_components` succeeds, leaves the edges as they are, and
each edge touches exactly one component, which has a job. -/
theorem C21_edges_split (n : Nat) (ops : List BuildOp) (g : Graph) (hg : build n ops = .ok g) :
    ∃ g', g.computeConnectedComponents = .ok g' ∧ g'.edges = g.edges ∧
      ∀ i < g.edges.length, ∃ k ≤ g'.nComponents, Touches g' i k ∧ ∀ k', Touches g' i k' → k' = k := by
  have hf := fresh_build hg
  obtain ⟨g', h1, h2⟩ := computeConnectedComponents_spec hf
  have hT : ∀ i k, Touches g' i k ↔ EdgeIn g' i k := by
    intro i k
    constructor
    · rintro ⟨e, v, vx, a, b, c, d⟩
      exact ⟨e, v, a, b, by simp [Graph.comp, c, d]⟩
    · rintro ⟨e, v, a, b, c⟩
      unfold Graph.comp at c
      cases hv : g'.vertices[v]? with
      | none => simp [hv] at c
      | some vx =>
        rw [hv] at c
        exact ⟨e, v, vx, a, b, hv, by simpa using c⟩
  refine ⟨g', h1, h2.same.edges, ?_⟩
  intro i hi
  obtain ⟨k, hk⟩ := edgeIn_exists (h2.same.wf hf.wf) (by rw [h2.same.edges]; exact hi)
  refine ⟨k, ?_, (hT i k).mpr hk, fun k' hk' => ((hT i k').mp hk').unique h2.closed hk⟩
  obtain ⟨_, v, _, _, h⟩ := hk
  exact h2.bound v k h

/-- **C21**, safety: whatever the interleaving of the jobs, none accesses memory out of bounds or
loops. -/
theorem C21_no_fault (n : Nat) (ops : List BuildOp) (g : Graph) (hg : build n ops = .ok g) :
    ∃ s0, g.parInit = .ok s0 ∧ ∀ m s, Par.Steps m s0 s → ¬ s.Faulty := by
  have hf := fresh_build hg
  obtain ⟨g0, -, h2, h3, h4⟩ := parInit_spec hf
  refine ⟨_, h3, ?_⟩
  intro m s hs
  have hlive : Live ⟨g0, List.replicate (g0.nComponents + 1) .find⟩ := by
    intro k j hj c
    rw [List.getElem?_replicate] at hj
    split at hj <;> simp at hj
    rw [← hj]; simp
  obtain ⟨star, hI, hL, -⟩ := parSteps_spec (h2.same.wf hf.wf) h2.closed h4 hlive hs
  rintro ⟨k, j, f, hj, herr⟩
  by_cases hd : j = .done
  · subst hd; cases herr
  · obtain ⟨g', j', -, ok, -⟩ := parStep_spec (h2.same.wf hf.wf) h2.closed hI hj hd (hL k j hj)
    rw [ok] at herr
    cases herr

/-- **C21**, termination: the number of steps is bounded, whatever the interleaving, and as long as
a job is not finished one can proceed. -/
theorem C21_terminates (n : Nat) (ops : List BuildOp) (g : Graph) (hg : build n ops = .ok g) :
    ∃ s0, g.parInit = .ok s0 ∧ (∃ B, ∀ m s, Par.Steps m s0 s → m ≤ B) ∧
      ∀ m s, Par.Steps m s0 s → ¬ s.Finished → ∃ s', Par.Step s s' := by
  have hf := fresh_build hg
  obtain ⟨g0, -, h2, h3, h4⟩ := parInit_spec hf
  have hlive : Live ⟨g0, List.replicate (g0.nComponents + 1) .find⟩ := by
    intro k j hj c
    rw [List.getElem?_replicate] at hj
    split at hj <;> simp at hj
    rw [← hj]; simp
  have hw0 := h2.same.wf hf.wf
  refine ⟨_, h3, ⟨(workLeft g0 ⟨g0, List.replicate (g0.nComponents + 1) .find⟩ g0.edges).toNat, ?_⟩, ?_⟩
  · intro m s hs
    obtain ⟨star, hI, -, hm⟩ := parSteps_spec hw0 h2.closed h4 hlive hs
    have := workLeft_nonneg hw0 hI
    omega
  · intro m s hs hnf
    obtain ⟨star, hI, hL, -⟩ := parSteps_spec hw0 h2.closed h4 hlive hs
    unfold Par.Finished at hnf
    push Not at hnf
    obtain ⟨j, hj, hd⟩ := hnf
    obtain ⟨k, hk⟩ := List.mem_iff_getElem?.mp hj
    obtain ⟨g', j', -, ok, -⟩ := parStep_spec hw0 h2.closed hI hk hd (hL k j hk)
    exact ⟨_, Par.Step.mk hk hd ok⟩

/-- **C21**, the result: when all the jobs are finished, whatever the interleaving, the graph holds
a flow of the same value as the one computed by `compute_residual_maxflow`. Partial: a search is one
step of this model, although the code reads without synchronisation (`C21_race`) flows of other
components, which have no effect on the search; `C21_fine_same_value` is about searches that are
interleaved with the other jobs. -/
theorem C21_same_value_partial (n : Nat) (ops : List BuildOp) (g : Graph) (hg : build n ops = .ok g) :
    ∃ s0 gs gs', g.parInit = .ok s0 ∧ g.computeResidualMaxflow = .ok gs ∧
      gs.transformResidualToFlow = .ok gs' ∧
      ∀ m s, Par.Steps m s0 s → s.Finished →
        ∃ gp, s.result.transformResidualToFlow = .ok gp ∧
          (network gp).map FlowEdge.pipe = ops.map pipeOf ∧ IsFlow (network gp) ∧
          value (network gp) = value (network gs') := by
  have hf := fresh_build hg
  obtain ⟨g0, -, h2, h3, h4⟩ := parInit_spec hf
  have hlive : Live ⟨g0, List.replicate (g0.nComponents + 1) .find⟩ := by
    intro k j hj c
    rw [List.getElem?_replicate] at hj
    split at hj <;> simp at hj
    rw [← hj]; simp
  have hw0 := h2.same.wf hf.wf
  obtain ⟨gs, k1, k2, -⟩ := computeResidualMaxflow_spec hf
  obtain ⟨a, b, c, -, -, f⟩ := k2.facts hg
  refine ⟨_, gs, flipped gs, h3, k1, a, ?_⟩
  intro m s hs hfin
  obtain ⟨star, hI, hL, -⟩ := parSteps_spec hw0 h2.closed h4 hlive hs
  have hM := par_finished hw0 h2.closed h2.bound hI hfin
  have hM' : MaxResidual g s.result := ⟨hM.1, hM.2.trans (by rw [h2.same.edges]), hM.3, hM.4, hM.5, hM.6⟩
  obtain ⟨a', b', c', -, -, f'⟩ := hM'.facts hg
  refine ⟨flipped s.result, a', by rw [b', pipeOf_eq], c', ?_⟩
  exact le_antisymm (f _ c' b') (f' _ c b)

/-- Two components with two vertices each, a vertex alone, and flows of 2 and 3 units -/
def twoComponents : List BuildOp :=
  [.fromSource 0 2 0, .edge 1 4 0 1, .toSink 0 2 1, .fromSource 0 3 2, .edge 2 5 2 3, .toSink 0 4 3]

example : (match build 5 twoComponents with
    | .ok g => match g.computeConnectedComponents with
      | .ok g' => (g'.nComponents, g'.vertices.map Vertex.component)
      | .error _ => (0, [])
    | .error _ => (0, [])) = (2, [1, 1, 2, 2, 0]) := by
  set_option maxRecDepth 10000 in decide

/-- The edges whose flow is read when a search starts: the first iteration of the `while` loop
evaluates `e.flow > 0` on all the edges leaving the source (tethys_graph.cpp L166-174), before the
component of the vertex they reach is looked at (L191). -/
def searchStartReads (g : Graph) : List EdgePtr := g.source.outEdges

/-- A data race: a job starts a search that reads the flow of an edge, while the update of the flow
of this edge by another job is in progress. -/
def Par.Race (s : Par) : Prop :=
  ∃ (k k' : Nat) (p : EdgePtr) (c : UInt64) (ps : List EdgePtr), k ≠ k' ∧
    s.jobs[k]? = some .find ∧ s.jobs[k']? = some (.update c (p :: ps)) ∧
    p.index ∈ (searchStartReads s.graph).map EdgePtr.index

/-- **C21** does not hold to the letter: the jobs write disjoint edges, but the search of a job also
reads the edges from the source to the other components, without synchronisation with the jobs that
write them. -/
theorem C21_race : ∃ g s0 s, build 5 twoComponents = .ok g ∧ g.parInit = .ok s0 ∧
    Par.Steps 1 s0 s ∧ s.Race := by
  refine ⟨_, _, _, rfl, rfl, Par.Steps.tail (Par.Steps.refl _) (Par.Step.mk (k := 2) rfl ?_ rfl), ?_⟩
  · decide
  · refine ⟨1, 2, ⟨false, 3⟩, _, _, by decide, rfl, rfl, ?_⟩
    decide

end Verif.Tethys
