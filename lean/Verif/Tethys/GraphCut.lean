import Verif.Tethys.GraphFlow
import Mathlib.Algebra.BigOperators.Group.Finset.Piecewise

/-! # Helper lemmas: construction of graphs, cuts, maximality -/

namespace Verif.Tethys

open Spec

/-! ## Construction -/

/-- A call of one of the functions adding an edge -/
inductive BuildOp where
  | edge (vi cap : UInt64) (start stop : Nat)
  | fromSource (vi cap : UInt64) (stop : Nat)
  | toSink (vi cap : UInt64) (start : Nat)

def BuildOp.apply (g : Graph) : BuildOp → Except Fault Graph
  | .edge vi cap s t => g.addEdge vi cap s t
  | .fromSource vi cap t => g.addEdgeFromSource vi cap t
  | .toSink vi cap s => g.addEdgeToSink vi cap s

/-- A graph built by a sequence of calls -/
def buildFrom (g : Graph) : List BuildOp → Except Fault Graph
  | [] => .ok g
  | op :: ops => match op.apply g with
    | .error f => .error f
    | .ok g' => buildFrom g' ops

def build (n : Nat) (ops : List BuildOp) : Except Fault Graph :=
  match Graph.new n with
  | .error f => .error f
  | .ok g => buildFrom g ops

/-- Graphs under construction -/
structure Fresh (g : Graph) : Prop where
  wf : WF g
  state : g.state = .building
  flows : ∀ e ∈ g.edges, e.flow = e.capacity ∧ e.recFlow = 0
  comps : ∀ v vx, g.vertex v = .ok vx → vx.component = 0
  nonempty : g.vertices ≠ []
  ncomps : g.nComponents = 0

theorem fresh_new {n : Nat} {g : Graph} (h : Graph.new n = .ok g) : Fresh g := by
  unfold Graph.new at h
  split at h
  · cases h
  · rename_i hn
    cases h
    refine ⟨⟨by simp, by simp, by simp, ?_, ?_, rfl⟩, rfl, by simp, ?_, by simpa using hn, rfl⟩
    all_goals
      intro v vx hv
      cases v with
      | source => cases hv; rfl
      | sink => cases hv; rfl
      | inner i =>
        simp only [Graph.vertex, List.getElem?_replicate] at hv
        split at hv
        · rename_i h; split at h <;> simp at h; subst h; cases hv; rfl
        · cases hv

/-- The vertex lists after appending an edge -/
theorem wf_append {g g' : Graph} (hw : WF g) (e : Edge)
    (hedges : g'.edges = g.edges ++ [e])
    (hlen : g'.vertices.length = g.vertices.length)
    (hs : e.start = .source ∨ ∃ i < g.vertices.length, e.start = .inner i)
    (ht : e.stop = .sink ∨ ∃ i < g.vertices.length, e.stop = .inner i)
    (hd : ¬ (e.start = .source ∧ e.stop = .sink))
    (hps : g'.parents .source = none)
    (hv : ∀ v vx, g'.vertex v = .ok vx → ∃ vx0, g.vertex v = .ok vx0 ∧
      vx.outEdges = vx0.outEdges ++ (if e.start = v then [⟨false, g.edges.length⟩] else []) ∧
      vx.inEdges = vx0.inEdges ++ (if e.stop = v then [⟨false, g.edges.length⟩] else [])) :
    WF g' := by
  refine ⟨?_, ?_, ?_, ?_, ?_, hps⟩
  · intro x hx
    rw [hedges] at hx
    rw [hlen]
    rcases List.mem_append.mp hx with hx | hx
    · exact hw.start x hx
    · simp at hx; subst hx; exact hs
  · intro x hx
    rw [hedges] at hx
    rw [hlen]
    rcases List.mem_append.mp hx with hx | hx
    · exact hw.stop x hx
    · simp at hx; subst hx; exact ht
  · intro x hx
    rw [hedges] at hx
    rcases List.mem_append.mp hx with hx | hx
    · exact hw.direct x hx
    · simp at hx; subst hx; exact hd
  · intro v vx h
    obtain ⟨vx0, h0, h1, -⟩ := hv v vx h
    rw [h1, hedges, idxs_append, hw.out v vx0 h0]
    simp [startsAt]
  · intro v vx h
    obtain ⟨vx0, h0, -, h1⟩ := hv v vx h
    rw [h1, hedges, idxs_append, hw.inc v vx0 h0]
    simp [stopsAt]

theorem fresh_append {g g' : Graph} (hf : Fresh g) (vi cap : UInt64) (s t : VertexPtr)
    (hedges : g'.edges = g.edges ++ [Edge.new vi cap s t])
    (hlen : g'.vertices.length = g.vertices.length)
    (hs : s = .source ∨ ∃ i < g.vertices.length, s = .inner i)
    (ht : t = .sink ∨ ∃ i < g.vertices.length, t = .inner i)
    (hd : ¬ (s = .source ∧ t = .sink))
    (hps : g'.parents = g.parents) (hst : g'.state = g.state) (hnc : g'.nComponents = g.nComponents)
    (hv : ∀ v vx, g'.vertex v = .ok vx → ∃ vx0, g.vertex v = .ok vx0 ∧
      vx.outEdges = vx0.outEdges ++ (if s = v then [⟨false, g.edges.length⟩] else []) ∧
      vx.inEdges = vx0.inEdges ++ (if t = v then [⟨false, g.edges.length⟩] else []) ∧
      vx.component = vx0.component) : Fresh g' := by
  refine ⟨wf_append hf.wf (Edge.new vi cap s t) hedges hlen hs ht hd (by rw [hps]; exact hf.wf.psource)
    ?_, hst.trans hf.state, ?_, ?_, ?_, hnc.trans hf.ncomps⟩
  · intro v vx h
    obtain ⟨vx0, a, b, c, -⟩ := hv v vx h
    exact ⟨vx0, a, b, c⟩
  · intro x hx
    rw [hedges] at hx
    rcases List.mem_append.mp hx with hx | hx
    · exact hf.flows x hx
    · simp at hx; subst hx; exact ⟨rfl, rfl⟩
  · intro v vx h
    obtain ⟨vx0, a, -, -, d⟩ := hv v vx h
    rw [d]; exact hf.comps v vx0 a
  · intro h
    rw [h] at hlen
    exact hf.nonempty (List.length_eq_zero_iff.mp hlen.symm)

theorem getElem?_modify' {l : List Vertex} {i j : Nat} {f : Vertex → Vertex} {x : Vertex}
    (h : (l.modify i f)[j]? = some x) : ∃ y, l[j]? = some y ∧ x = if i = j then f y else y := by
  rw [List.getElem?_modify] at h
  cases hl : l[j]? with
  | none => simp [hl] at h
  | some y =>
    rw [hl] at h
    simp at h
    exact ⟨y, rfl, by rw [← h]⟩

theorem vertex_inner_ok {g : Graph} {i : Nat} {vx : Vertex} :
    g.vertex (.inner i) = .ok vx ↔ g.vertices[i]? = some vx := by
  simp only [Graph.vertex]
  cases g.vertices[i]? <;> simp

theorem fresh_apply {g g' : Graph} (hf : Fresh g) (op : BuildOp) (h : op.apply g = .ok g') :
    Fresh g' := by
  cases op with
  | edge vi cap s t =>
    simp only [BuildOp.apply, Graph.addEdge] at h
    split at h
    · cases h
    split at h
    · cases h
    split at h
    · cases h
    rename_i h1 h2 h3
    cases h
    refine fresh_append hf vi cap (.inner s) (.inner t) rfl (by simp)
      (Or.inr ⟨s, by omega, rfl⟩) (Or.inr ⟨t, by omega, rfl⟩) (by simp) rfl rfl rfl ?_
    intro v vx hv
    cases v with
    | source => exact ⟨vx, hv, by simp, by simp, rfl⟩
    | sink => exact ⟨vx, hv, by simp, by simp, rfl⟩
    | inner j =>
      rw [vertex_inner_ok] at hv
      obtain ⟨y, hy, rfl⟩ := getElem?_modify' hv
      obtain ⟨z, hz, rfl⟩ := getElem?_modify' hy
      refine ⟨z, vertex_inner_ok.mpr hz, ?_, ?_, ?_⟩ <;> by_cases a : t = j <;> by_cases b : s = j <;>
        simp [a, b]
  | fromSource vi cap t =>
    simp only [BuildOp.apply, Graph.addEdgeFromSource] at h
    split at h
    · cases h
    split at h
    · cases h
    rename_i h1 h2
    cases h
    refine fresh_append hf vi cap .source (.inner t) rfl (by simp)
      (Or.inl rfl) (Or.inr ⟨t, by omega, rfl⟩) (by simp) rfl rfl rfl ?_
    intro v vx hv
    cases v with
    | source => cases hv; exact ⟨g.source, rfl, by simp, by simp, rfl⟩
    | sink => exact ⟨vx, hv, by simp, by simp, rfl⟩
    | inner j =>
      rw [vertex_inner_ok] at hv
      obtain ⟨y, hy, rfl⟩ := getElem?_modify' hv
      refine ⟨y, vertex_inner_ok.mpr hy, ?_, ?_, ?_⟩ <;> by_cases a : t = j <;> simp [a]
  | toSink vi cap s =>
    simp only [BuildOp.apply, Graph.addEdgeToSink] at h
    split at h
    · cases h
    split at h
    · cases h
    rename_i h1 h2
    cases h
    refine fresh_append hf vi cap (.inner s) .sink rfl (by simp)
      (Or.inr ⟨s, by omega, rfl⟩) (Or.inl rfl) (by simp) rfl rfl rfl ?_
    intro v vx hv
    cases v with
    | source => exact ⟨vx, hv, by simp, by simp, rfl⟩
    | sink => cases hv; exact ⟨g.sink, rfl, by simp, by simp, rfl⟩
    | inner j =>
      rw [vertex_inner_ok] at hv
      obtain ⟨y, hy, rfl⟩ := getElem?_modify' hv
      refine ⟨y, vertex_inner_ok.mpr hy, ?_, ?_, ?_⟩ <;> by_cases a : s = j <;> simp [a]

theorem fresh_buildFrom {g g' : Graph} (hf : Fresh g) (ops : List BuildOp)
    (h : buildFrom g ops = .ok g') : Fresh g' := by
  induction ops generalizing g with
  | nil => cases h; exact hf
  | cons op ops ih =>
    rw [buildFrom] at h
    cases ha : op.apply g with
    | error f => simp [ha] at h
    | ok g1 =>
      rw [ha] at h
      exact ih (fresh_apply hf op ha) h

theorem fresh_build {n : Nat} {ops : List BuildOp} {g : Graph} (h : build n ops = .ok g) :
    Fresh g := by
  unfold build at h
  cases hn : Graph.new n with
  | error f => simp [hn] at h
  | ok g0 =>
    rw [hn] at h
    exact fresh_buildFrom (fresh_new hn) ops h

theorem Fresh.balanced {g : Graph} (hf : Fresh g) : Balanced g.edges := by
  intro e he
  obtain ⟨h1, h2⟩ := hf.flows e he
  simp [h1, h2]

theorem excess_zero {es : List Edge} (h : ∀ e ∈ es, e.recFlow = 0) (v : VertexPtr) :
    excess es v = 0 := by
  unfold excess
  rw [esum_congr (g := fun _ => 0) (fun e he => by simp [Edge.at, Edge.fl, h e he])]
  clear h
  induction es <;> simp_all

/-! ## From residual graphs to flows -/

/-- The flow pushed through an edge of the residual graph -/
def toFlow (e : Edge) : FlowEdge := ⟨e.start, e.stop, e.capacity.toNat, e.recFlow.toNat⟩

theorem inflow_cons (e : FlowEdge) (es : List FlowEdge) (v : VertexPtr) :
    inflow (e :: es) v = (if e.stop = v then e.flow else 0) + inflow es v := by
  unfold inflow
  by_cases h : e.stop = v <;> simp [h]

theorem outflow_cons (e : FlowEdge) (es : List FlowEdge) (v : VertexPtr) :
    outflow (e :: es) v = (if e.start = v then e.flow else 0) + outflow es v := by
  unfold outflow
  by_cases h : e.start = v <;> simp [h]

theorem excess_eq (es : List Edge) (v : VertexPtr) :
    excess es v = (inflow (es.map toFlow) v : Int) - outflow (es.map toFlow) v := by
  induction es with
  | nil => simp [excess, inflow, outflow]
  | cons e es ih =>
    rw [List.map_cons, inflow_cons, outflow_cons]
    unfold excess at ih ⊢
    rw [esum_cons, ih]
    simp only [Edge.at, toFlow, Edge.fl]
    by_cases a : e.stop = v <;> by_cases b : e.start = v <;> simp [a, b] <;> ring

/-- Contribution of an edge to a cut -/
def cutTerm (S : VertexPtr → Bool) (e : FlowEdge) : Int :=
  e.flow * ((if S e.start then 1 else 0) - (if S e.stop then 1 else 0))

theorem cut_sum (S : VertexPtr → Bool) (V : Finset VertexPtr) (es : List FlowEdge)
    (hV : ∀ e ∈ es, e.start ∈ V ∧ e.stop ∈ V) :
    ∑ v ∈ V, (if S v then ((outflow es v : Int) - inflow es v) else 0) =
      (es.map (cutTerm S)).sum := by
  induction es with
  | nil => simp [inflow, outflow]
  | cons e es ih =>
    have ih := ih (fun x hx => hV x (List.mem_cons_of_mem _ hx))
    obtain ⟨h1, h2⟩ := hV e (List.mem_cons_self ..)
    rw [List.map_cons, List.sum_cons, ← ih]
    have : ∀ v ∈ V, (if S v then ((outflow (e :: es) v : Int) - inflow (e :: es) v) else 0) =
        ((if e.start = v then (if S v then (e.flow : Int) else 0) else 0) -
          (if e.stop = v then (if S v then (e.flow : Int) else 0) else 0)) +
        (if S v then ((outflow es v : Int) - inflow es v) else 0) := by
      intro v _
      rw [inflow_cons, outflow_cons]
      push_cast
      split <;> split <;> split <;> simp <;> ring
    rw [Finset.sum_congr rfl this, Finset.sum_add_distrib, Finset.sum_sub_distrib,
      Finset.sum_ite_eq, Finset.sum_ite_eq, if_pos h1, if_pos h2]
    congr 1
    unfold cutTerm
    split <;> split <;> simp

/-- The value of a flow is its net flow through any cut. -/
theorem value_eq_cut (es : List FlowEdge) (hf : IsFlow es) (S : VertexPtr → Bool)
    (hs : S .source = true) (ht : S .sink = false) : value es = (es.map (cutTerm S)).sum := by
  have hV : ∀ e ∈ es, e.start ∈ (VertexPtr.source :: es.flatMap (fun e => [e.start, e.stop])).toFinset ∧
      e.stop ∈ (VertexPtr.source :: es.flatMap (fun e => [e.start, e.stop])).toFinset := by
    intro e he
    simp only [List.mem_toFinset, List.mem_cons, List.mem_flatMap]
    exact ⟨Or.inr ⟨e, he, by simp⟩, Or.inr ⟨e, he, by simp⟩⟩
  rw [← cut_sum S _ es hV]
  rw [Finset.sum_eq_single (VertexPtr.source)]
  · simp [hs, value]
  · intro v _ hv
    cases v with
    | source => exact absurd rfl hv
    | sink => simp [ht]
    | inner i => rw [hf.conserved i]; simp
  · intro h
    exact absurd (by simp) h

/-- A cut that is saturated shows that a flow is maximal. -/
theorem cut_maximal (S : VertexPtr → Bool) (es : List FlowEdge)
    (hout : ∀ e ∈ es, S e.start = true → S e.stop = false → e.flow = e.cap)
    (hin : ∀ e ∈ es, S e.start = false → S e.stop = true → e.flow = 0)
    (fs : List FlowEdge) (hp : fs.map FlowEdge.pipe = es.map FlowEdge.pipe)
    (hcap : ∀ f ∈ fs, f.flow ≤ f.cap) :
    (fs.map (cutTerm S)).sum ≤ (es.map (cutTerm S)).sum := by
  induction es generalizing fs with
  | nil => simp at hp; subst hp; simp
  | cons e es ih =>
    cases fs with
    | nil => simp at hp
    | cons f fs =>
      simp only [List.map_cons, List.cons.injEq] at hp
      have h1 := ih (fun x hx => hout x (List.mem_cons_of_mem _ hx))
        (fun x hx => hin x (List.mem_cons_of_mem _ hx)) fs hp.2
        (fun x hx => hcap x (List.mem_cons_of_mem _ hx))
      have h2 := hcap f (List.mem_cons_self ..)
      have h3 := hout e (List.mem_cons_self ..)
      have h4 := hin e (List.mem_cons_self ..)
      simp only [FlowEdge.pipe, Prod.mk.injEq] at hp
      simp only [List.map_cons, List.sum_cons]
      have : cutTerm S f ≤ cutTerm S e := by
        unfold cutTerm
        rw [hp.1.1, hp.1.2.1]
        cases hS : S e.start <;> cases hT : S e.stop <;> simp
        · rw [h4 hS hT]; simp
        · rw [h3 hS hT]; omega
      omega

/-- Nothing can be pushed further: no set of vertices around the source lets residual arcs out. -/
def Saturated (es : List Edge) (S : VertexPtr → Bool) : Prop :=
  S .source = true ∧ S .sink = false ∧
  ∀ e ∈ es, (S e.start = true → S e.stop = false → e.flow = 0) ∧
    (S e.start = false → S e.stop = true → e.recFlow = 0)

theorem Saturated.maximal {es : List Edge} {S : VertexPtr → Bool} (h : Saturated es S)
    (hb : Balanced es) (hf : IsFlow (es.map toFlow)) (fs : List FlowEdge) (hfs : IsFlow fs)
    (hp : fs.map FlowEdge.pipe = (es.map toFlow).map FlowEdge.pipe) :
    value fs ≤ value (es.map toFlow) := by
  rw [value_eq_cut fs hfs S h.1 h.2.1, value_eq_cut _ hf S h.1 h.2.1]
  apply cut_maximal S _ _ _ fs hp hfs.cap
  · intro f hfm h1 h2
    obtain ⟨e, he, rfl⟩ := List.mem_map.mp hfm
    have := (h.2.2 e he).1 h1 h2
    have hb := hb e he
    simp only [toFlow]
    rw [this] at hb
    simpa using hb
  · intro f hfm h1 h2
    obtain ⟨e, he, rfl⟩ := List.mem_map.mp hfm
    have := (h.2.2 e he).2 h1 h2
    simp [toFlow, this]

theorem isFlow_toFlow {es : List Edge} (hb : Balanced es) (hc : ∀ i, excess es (.inner i) = 0) :
    IsFlow (es.map toFlow) := by
  constructor
  · intro f hf
    obtain ⟨e, he, rfl⟩ := List.mem_map.mp hf
    have := hb e he
    simp only [toFlow]
    omega
  · intro i
    have := hc i
    rw [excess_eq] at this
    omega

/-- What enters the sink is what leaves the source. -/
theorem value_eq_sink (es : List FlowEdge) (hf : IsFlow es) (hs : inflow es .source = 0)
    (ht : outflow es .sink = 0) : outflow es .source = inflow es .sink := by
  have h1 := value_eq_cut es hf (fun v => decide (v ≠ .sink)) (by simp) (by simp)
  have hV : ∀ e ∈ es, e.start ∈ (VertexPtr.sink :: es.flatMap (fun e => [e.start, e.stop])).toFinset ∧
      e.stop ∈ (VertexPtr.sink :: es.flatMap (fun e => [e.start, e.stop])).toFinset := by
    intro e he
    simp only [List.mem_toFinset, List.mem_cons, List.mem_flatMap]
    exact ⟨Or.inr ⟨e, he, by simp⟩, Or.inr ⟨e, he, by simp⟩⟩
  have h2 := cut_sum (fun v => decide (v = .sink)) _ es hV
  rw [Finset.sum_eq_single VertexPtr.sink] at h2
  · have h3 : (es.map (cutTerm (fun v => decide (v ≠ .sink)))).sum =
        - (es.map (cutTerm (fun v => decide (v = .sink)))).sum := by
      clear h1 h2 hV hs ht hf
      induction es with
      | nil => simp
      | cons e es ih =>
        simp only [List.map_cons, List.sum_cons, ih]
        have : cutTerm (fun v => decide (v ≠ .sink)) e = -cutTerm (fun v => decide (v = .sink)) e := by
          unfold cutTerm
          by_cases a : e.start = .sink <;> by_cases b : e.stop = .sink <;> simp [a, b]
        rw [this]; ring
    simp only [decide_true, if_true, ht] at h2
    rw [h3, ← h2] at h1
    unfold value at h1
    rw [hs] at h1
    push_cast at h1
    omega
  · intro v _ hv
    simp [hv]
  · intro h
    exact absurd (by simp) h

end Verif.Tethys
