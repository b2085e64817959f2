import Verif.Tethys.Graph

/-!
# Connected components and the parallel computation of the flow

Model of `TethysGraph::compute_connected_components` and
`TethysGraph::parallel_compute_residual_maxflow` (`lib/tethys/tethys_graph.cpp` L326-513).
-/

namespace Verif.Tethys

/-- `vertices[i].component = c` -/
def Graph.setComponent (g : Graph) (i c : Nat) : Graph :=
  { g with vertices := g.vertices.modify i (fun v => { v with component := c }) }

/-- One of the two `for` loops of `compute_connected_components` (tethys_graph.cpp L350-365 over the
outgoing edges, L370-384 over the incoming ones). -/
def Graph.scanComponent (ci : Nat) (recip : Bool) :
    List EdgePtr → Graph → List Nat → Except Fault (Graph × List Nat)
  | [], g, queue => .ok (g, queue)
  | p :: ps, g, queue =>
    match g.edge p with
    | .error f => .error f
    | .ok e =>
      match e.head recip with
      | .source => scanComponent ci recip ps g queue
      | .sink => scanComponent ci recip ps g queue
      | .inner i =>
        match g.vertex (.inner i) with
        | .error f => .error f
        | .ok dest =>
          if dest.component = 0 then scanComponent ci recip ps (g.setComponent i ci) (i :: queue)
          else scanComponent ci recip ps g queue

/-- The `while` loop of `compute_connected_components` (tethys_graph.cpp L342-385). Returns the
graph and `component_size`. -/
def Graph.componentLoop (ci : Nat) : Nat → Graph → List Nat → Nat → Except Fault (Graph × Nat)
  | 0, _, _, _ => .error .diverge
  | _ + 1, g, [], size => .ok (g, size)
  | fuel + 1, g, i :: queue, size =>
    match g.vertex (.inner i) with
    | .error f => .error f
    | .ok v =>
      match scanComponent ci false v.outEdges g queue with
      | .error f => .error f
      | .ok (g1, q1) =>
        match scanComponent ci true v.inEdges g1 q1 with
        | .error f => .error f
        | .ok (g2, q2) => componentLoop ci fuel g2 q2 (size + 1)

/-- The `for` loop over the vertices (tethys_graph.cpp L330-393). Returns the graph and the next
`component_index`. `max_size` is only printed. -/
def Graph.componentsFrom : List Nat → Graph → Nat → Except Fault (Graph × Nat)
  | [], g, ci => .ok (g, ci)
  | vi :: vis, g, ci =>
    match g.vertex (.inner vi) with
    | .error f => .error f
    | .ok v =>
      if v.component ≠ 0 then componentsFrom vis g ci
      else
        match componentLoop ci (g.vertices.length + 2) (g.setComponent vi ci) [vi] 0 with
        | .error f => .error f
        | .ok (g', size) =>
          if size = 1 then componentsFrom vis (g'.setComponent vi 0) ci
          else componentsFrom vis g' (ci + 1)

/-- `TethysGraph::compute_connected_components` (tethys_graph.cpp L326-399) -/
def Graph.computeConnectedComponents (g : Graph) : Except Fault Graph :=
  match componentsFrom (List.range g.vertices.length) g 1 with
  | .error f => .error f
  | .ok (g', ci) => .ok { g' with nComponents := ci - 1 }

/-- State of the job of a component (tethys_graph.cpp L465-490): about to look for a path, in the
`for` loop that updates the edges of a path, or finished. -/
inductive Job where
  | find
  | update (c : UInt64) (path : List EdgePtr)
  | done
deriving DecidableEq

/-- One step of a job: `find_source_sink_path`, or `update_flow` on one edge. A search reads the
edges of its own component only (the flow of the edges from the source to other components is also
read, but has no effect: their end is in another component), and no other job writes these; so a
search is one step here. `Verif.Tethys.Fine` makes a step of each edge a search looks at. -/
def stepJob (g : Graph) (k : Nat) : Job → Except Fault (Graph × Job)
  | .done => .ok (g, .done)
  | .find =>
    match g.findPath k with
    | .error f => .error f
    | .ok (ps, path, c) =>
      if path.isEmpty then .ok ({ g with parents := ps }, .done)
      else .ok ({ g with parents := ps }, .update c path)
  | .update _ [] => .ok (g, .find)
  | .update c (p :: ps) =>
    .ok ({ g with edges := g.edges.modify p.index (fun e => e.update p.recip c) },
      if ps.isEmpty then .find else .update c ps)

/-- State of the parallel computation: the graph and one job for each component `0 … n_components`
(tethys_graph.cpp L462-494) -/
structure Par where
  graph : Graph
  jobs : List Job

/-- One step of some unfinished job. Every schedule of the jobs on any number of threads is a
sequence of such steps. -/
inductive Par.Step : Par → Par → Prop
  | mk {s : Par} {k : Nat} {j j' : Job} {g' : Graph} : s.jobs[k]? = some j → j ≠ .done →
      stepJob s.graph k j = .ok (g', j') → Par.Step s ⟨g', s.jobs.set k j'⟩

/-- A job is about to access memory out of bounds, or does not terminate. -/
def Par.Faulty (s : Par) : Prop :=
  ∃ k j f, s.jobs[k]? = some j ∧ stepJob s.graph k j = .error f

/-- The state when the jobs are enqueued (tethys_graph.cpp L445-494) -/
def Graph.parInit (g : Graph) : Except Fault Par :=
  if g.state ≠ .building then .error .invalidArgument
  else match g.computeConnectedComponents with
    | .error f => .error f
    | .ok g' => .ok ⟨g', List.replicate (g'.nComponents + 1) .find⟩

/-- All the jobs are finished (tethys_graph.cpp L500-503). -/
def Par.Finished (s : Par) : Prop := ∀ j ∈ s.jobs, j = .done

/-- The graph returned once all the jobs are finished (tethys_graph.cpp L512) -/
def Par.result (s : Par) : Graph := { s.graph with state := .residualComputed }

/-- Sequences of steps, with their length -/
inductive Par.Steps : Nat → Par → Par → Prop
  | refl (s : Par) : Par.Steps 0 s s
  | tail {n : Nat} {s s' s'' : Par} : Par.Steps n s s' → Par.Step s' s'' → Par.Steps (n + 1) s s''

end Verif.Tethys
