/-!
# The allocation graph of Tethys

Model of `lib/include/sse/schemes/tethys/details/tethys_graph.hpp` and
`lib/tethys/tethys_graph.cpp`.

`size_t` quantities that are computed with (capacities and flows) are `UInt64`, so that additions
and subtractions wrap as in C++. Indexes are natural numbers.
-/

namespace Verif.Tethys

/-- `VertexPtr` (tethys_graph.hpp L17-45): an index in the vector of vertices, or one of the two
distinguished values `kSourcePtr`, `kSinkPtr` (`~0UL - 2` and `~0UL - 1`, which are no index of a
vector). The null pointer is never dereferenced by the graph and has no counterpart. -/
inductive VertexPtr where
  | source
  | sink
  | inner (i : Nat)
deriving DecidableEq, Repr

/-- `EdgePtr` (tethys_graph.hpp L48-91): an index in the vector of edges, and a flag telling that
the edge is taken backwards. The null pointer is `none : Option EdgePtr`. -/
structure EdgePtr where
  recip : Bool
  index : Nat
deriving DecidableEq, Repr

/-- `EdgePtr::reciprocal` (tethys_graph.hpp L81-84) -/
def EdgePtr.reciprocal (p : EdgePtr) : EdgePtr := ⟨!p.recip, p.index⟩

/-- `Edge` (tethys_graph.hpp L97-118) -/
structure Edge where
  valueIndex : UInt64
  capacity : UInt64
  flow : UInt64
  recFlow : UInt64
  start : VertexPtr
  stop : VertexPtr
deriving DecidableEq, Repr

/-- `Edge::Edge(vi, cap)` (tethys_graph.hpp L108-110): the flow starts at the capacity. -/
def Edge.new (vi cap : UInt64) (start stop : VertexPtr) : Edge := ⟨vi, cap, cap, 0, start, stop⟩

/-- `Vertex` (tethys_graph.hpp L188-199), without the mutable `parent_edge`, which is in
`Graph.parents` -/
structure Vertex where
  inEdges : List EdgePtr
  outEdges : List EdgePtr
  component : Nat
deriving DecidableEq, Repr

/-- `TethysGraph::State` (tethys_graph.hpp L275-280) -/
inductive State where
  | building
  | residualComputed
  | maxFlowComputed
deriving DecidableEq, Repr

/-- Values of the field `Vertex::parent_edge` -/
abbrev Parents := VertexPtr → Option EdgePtr

/-- `TethysGraph` (tethys_graph.hpp L272-366). `graph_size` is the length of `vertices`. -/
structure Graph where
  state : State
  source : Vertex
  sink : Vertex
  vertices : List Vertex
  edges : List Edge
  parents : Parents
  nComponents : Nat

/-- Outcomes other than a normal return: the exceptions thrown by the code, an access out of the
bounds of a vector or a buffer and a division by zero (undefined behaviour), and a loop that exceeds
the number of iterations given to the model. -/
inductive Fault where
  | invalidArgument
  | outOfRange
  | runtimeError
  | outOfBounds
  | divByZero
  | diverge
deriving DecidableEq, Repr

/-- `TethysGraph(n)` (tethys_graph.hpp L282-288) -/
def Graph.new (n : Nat) : Except Fault Graph :=
  if n = 0 then .error .invalidArgument
  else .ok ⟨.building, ⟨[], [], 0⟩, ⟨[], [], 0⟩, List.replicate n ⟨[], [], 0⟩, [], fun _ => none, 0⟩

/-- `TethysGraph::get_vertex` (tethys_graph.cpp L17-39) -/
def Graph.vertex (g : Graph) : VertexPtr → Except Fault Vertex
  | .source => .ok g.source
  | .sink => .ok g.sink
  | .inner i => match g.vertices[i]? with
    | some v => .ok v
    | none => .error .outOfBounds

/-- `EdgeVec::operator[]` (tethys_graph.hpp L129-137) -/
def Graph.edge (g : Graph) (p : EdgePtr) : Except Fault Edge :=
  match g.edges[p.index]? with
  | some e => .ok e
  | none => .error .outOfBounds

/-- `TethysGraph::add_edge` (tethys_graph.cpp L41-72) -/
def Graph.addEdge (g : Graph) (vi cap : UInt64) (start stop : Nat) : Except Fault Graph :=
  if g.state ≠ .building then .error .invalidArgument
  else if start ≥ g.vertices.length then .error .outOfRange
  else if stop ≥ g.vertices.length then .error .outOfRange
  else
    let p : EdgePtr := ⟨false, g.edges.length⟩
    let vs := g.vertices.modify start (fun v => { v with outEdges := v.outEdges ++ [p] })
    let vs := vs.modify stop (fun v => { v with inEdges := v.inEdges ++ [p] })
    .ok { g with edges := g.edges ++ [Edge.new vi cap (.inner start) (.inner stop)], vertices := vs }

/-- `TethysGraph::add_edge_from_source` (tethys_graph.cpp L74-99) -/
def Graph.addEdgeFromSource (g : Graph) (vi cap : UInt64) (stop : Nat) : Except Fault Graph :=
  if g.state ≠ .building then .error .invalidArgument
  else if stop ≥ g.vertices.length then .error .outOfRange
  else
    let p : EdgePtr := ⟨false, g.edges.length⟩
    .ok { g with
      edges := g.edges ++ [Edge.new vi cap .source (.inner stop)]
      source := { g.source with outEdges := g.source.outEdges ++ [p] }
      vertices := g.vertices.modify stop (fun v => { v with inEdges := v.inEdges ++ [p] }) }

/-- `TethysGraph::add_edge_to_sink` (tethys_graph.cpp L101-128) -/
def Graph.addEdgeToSink (g : Graph) (vi cap : UInt64) (start : Nat) : Except Fault Graph :=
  if g.state ≠ .building then .error .invalidArgument
  else if start ≥ g.vertices.length then .error .outOfRange
  else
    let p : EdgePtr := ⟨false, g.edges.length⟩
    .ok { g with
      edges := g.edges ++ [Edge.new vi cap (.inner start) .sink]
      vertices := g.vertices.modify start (fun v => { v with outEdges := v.outEdges ++ [p] })
      sink := { g.sink with inEdges := g.sink.inEdges ++ [p] } }

/-- `EdgeVec::edge_flow` (tethys_graph.hpp L139-146), on the edge -/
def Edge.flowAlong (e : Edge) (recip : Bool) : UInt64 := if recip then e.recFlow else e.flow

/-- The vertex reached by following an edge: `e.end`, or `e.start` backwards. -/
def Edge.head (e : Edge) (recip : Bool) : VertexPtr := if recip then e.start else e.stop

/-- The vertex left by following an edge: `e.start`, or `e.end` backwards. -/
def Edge.tail (e : Edge) (recip : Bool) : VertexPtr := if recip then e.stop else e.start

/-- `EdgeVec::update_flow` (tethys_graph.hpp L148-159), on the edge -/
def Edge.update (e : Edge) (recip : Bool) (c : UInt64) : Edge :=
  if recip then { e with flow := e.flow + c, recFlow := e.recFlow - c }
  else { e with flow := e.flow - c, recFlow := e.recFlow + c }

/-- The local variables of `find_source_sink_path` (tethys_graph.cpp L146-158): the deque used as
a stack, the vector `visited` as the list of the vertices whose flag is set, `parent_edge` of the
vertices, and `sink_parent_edge` (`found_sink` is set exactly when it becomes non-null). -/
structure Dfs where
  stack : List VertexPtr
  visited : List VertexPtr
  parents : Parents
  sinkParent : Option EdgePtr

/-- Setting `parent_edge` of a vertex -/
def setParent (ps : Parents) (v : VertexPtr) (p : EdgePtr) : Parents :=
  fun x => if x = v then some p else ps x

/-- One of the two `for` loops of `find_source_sink_path`: over the outgoing edges
(tethys_graph.cpp L172-203, `recip = false`), or over the incoming ones (L206-243, `recip = true`).
The message on `std::cerr` is not modelled. -/
def Graph.scan (g : Graph) (component : Nat) (recip : Bool) : List EdgePtr → Dfs → Except Fault Dfs
  | [], st => .ok st
  | p :: ps, st =>
    match g.edge p with
    | .error f => .error f
    | .ok e =>
      if e.flowAlong recip > 0 then
        match g.vertex (e.head recip) with
        | .error f => .error f
        | .ok dest =>
          let arc : EdgePtr := if recip then p.reciprocal else p
          match e.head recip with
          | .sink => .ok { st with sinkParent := some arc }
          | .source => g.scan component recip ps st
          | .inner i =>
            if VertexPtr.inner i ∉ st.visited ∧ dest.component = component then
              g.scan component recip ps
                { st with
                  stack := .inner i :: st.stack
                  visited := .inner i :: st.visited
                  parents := setParent st.parents (.inner i) arc }
            else g.scan component recip ps st
      else g.scan component recip ps st

/-- The `while` loop of `find_source_sink_path` (tethys_graph.cpp L160-244). As in the code, the
incoming edges are still scanned after the sink was found through an outgoing edge. -/
def Graph.dfsLoop (g : Graph) (component : Nat) : Nat → Dfs → Except Fault Dfs
  | 0, _ => .error .diverge
  | fuel + 1, st =>
    if st.sinkParent.isSome then .ok st
    else match st.stack with
      | [] => .ok st
      | v :: rest =>
        match g.vertex v with
        | .error f => .error f
        | .ok vx =>
          match g.scan component false vx.outEdges { st with stack := rest } with
          | .error f => .error f
          | .ok st1 =>
            match g.scan component true vx.inEdges st1 with
            | .error f => .error f
            | .ok st2 => g.dfsLoop component fuel st2

/-- Following the parent edges back to the source (tethys_graph.cpp L246-313). The code walks twice,
first for the length and the flow, then for the path; the model builds the path in one walk. -/
def Graph.walk (g : Graph) (ps : Parents) : Nat → VertexPtr → List EdgePtr →
    Except Fault (List EdgePtr)
  | 0, _, _ => .error .diverge
  | fuel + 1, v, acc =>
    match ps v with
    | none => .ok acc
    | some p =>
      match g.edge p with
      | .error f => .error f
      | .ok e => g.walk ps fuel (e.tail p.recip) (p :: acc)

/-- `std::min` -/
def stdMin (a b : UInt64) : UInt64 := if b < a then b else a

/-- The flow of a path: the minimum of `SIZE_MAX` and of the flows of its edges
(tethys_graph.cpp L249, L255, L269) -/
def Graph.pathFlow (g : Graph) : List EdgePtr → Except Fault UInt64
  | [] => .ok (UInt64.ofNat (2 ^ 64 - 1))
  | p :: ps =>
    match g.edge p, g.pathFlow ps with
    | .ok e, .ok c => .ok (stdMin (e.flowAlong p.recip) c)
    | .error f, _ => .error f
    | _, .error f => .error f

/-- `TethysGraph::find_source_sink_path` (tethys_graph.cpp L146-324): the parents it leaves in the
vertices, the path and its flow. The loops are given one more iteration than there are vertices
(including source and sink); that they never need more is part of C20. -/
def Graph.findPath (g : Graph) (component : Nat) :
    Except Fault (Parents × List EdgePtr × UInt64) :=
  match g.dfsLoop component (g.vertices.length + 2) ⟨[.source], [], g.parents, none⟩ with
  | .error f => .error f
  | .ok st =>
    match st.sinkParent with
    | none => .ok (st.parents, [], 0)
    | some p =>
      match g.edge p with
      | .error f => .error f
      | .ok e =>
        match g.walk st.parents (g.vertices.length + 2) (e.tail p.recip) [p] with
        | .error f => .error f
        | .ok path =>
          match g.pathFlow path with
          | .error f => .error f
          | .ok c => .ok (st.parents, path, c)

/-- `EdgeVec::update_flow` along a path (tethys_graph.cpp L421-424) -/
def updatePath (c : UInt64) : List EdgePtr → List Edge → List Edge
  | [], es => es
  | p :: ps, es => updatePath c ps (es.modify p.index (fun e => e.update p.recip c))

/-- The `while (true)` loop of `compute_residual_maxflow` (tethys_graph.cpp L411-437), and of a job of
`parallel_compute_residual_maxflow` (L467-489). The counters `it` and `computed_capacity` only go
to the log. -/
def Graph.augmentLoop (component : Nat) : Nat → Graph → Except Fault Graph
  | 0, _ => .error .diverge
  | fuel + 1, g =>
    match g.findPath component with
    | .error f => .error f
    | .ok (ps, path, c) =>
      if path.isEmpty then .ok { g with parents := ps }
      else augmentLoop component fuel { g with parents := ps, edges := updatePath c path g.edges }

/-- A bound for the number of augmentations: one more than the sum of the capacities. -/
def Graph.augmentFuel (g : Graph) : Nat := (g.edges.map (fun e => e.capacity.toNat)).sum + 1

/-- `TethysGraph::compute_residual_maxflow` (tethys_graph.cpp L401-443) -/
def Graph.computeResidualMaxflow (g : Graph) : Except Fault Graph :=
  if g.state ≠ .building then .error .invalidArgument
  else match g.augmentLoop 0 g.augmentFuel with
    | .error f => .error f
    | .ok g' => .ok { g' with state := .residualComputed }

/-- `TethysGraph::transform_residual_to_flow` (tethys_graph.cpp L515-527) -/
def Graph.transformResidualToFlow (g : Graph) : Except Fault Graph :=
  if g.state ≠ .residualComputed then .error .invalidArgument
  else .ok { g with
    edges := g.edges.map (fun e => { e with flow := e.recFlow, recFlow := 0 })
    state := .maxFlowComputed }

/-- `std::accumulate` over edges, in `size_t` -/
def Graph.sumEdges (g : Graph) (f : Edge → UInt64) : List EdgePtr → UInt64 → Except Fault UInt64
  | [], acc => .ok acc
  | p :: ps, acc =>
    match g.edge p with
    | .error e => .error e
    | .ok e => g.sumEdges f ps (acc + f e)

/-- `TethysGraph::get_flow` (tethys_graph.cpp L529-543) -/
def Graph.getFlow (g : Graph) : Except Fault UInt64 :=
  if g.state ≠ .maxFlowComputed then .error .invalidArgument
  else g.sumEdges (·.flow) g.source.outEdges 0

/-- `TethysGraph::get_edge_flow` (tethys_graph.cpp L550-558) -/
def Graph.getEdgeFlow (g : Graph) (p : EdgePtr) : Except Fault UInt64 :=
  if g.state ≠ .maxFlowComputed then .error .invalidArgument
  else match g.edge p with
    | .error e => .error e
    | .ok e => .ok e.flow

/-- `TethysGraph::get_vertex_out_capacity` (tethys_graph.cpp L572-581) -/
def Graph.vertexOutCapacity (g : Graph) (v : VertexPtr) : Except Fault UInt64 :=
  match g.vertex v with
  | .error f => .error f
  | .ok vx => g.sumEdges (·.capacity) vx.outEdges 0

/-- `TethysGraph::get_vertex_in_flow` (tethys_graph.cpp L583-597) -/
def Graph.vertexInFlow (g : Graph) (v : VertexPtr) : Except Fault UInt64 :=
  if g.state ≠ .maxFlowComputed then .error .invalidArgument
  else match g.vertex v with
    | .error f => .error f
    | .ok vx => g.sumEdges (·.flow) vx.inEdges 0

/-- `TethysGraph::get_vertex_out_flow` (tethys_graph.cpp L599-613) -/
def Graph.vertexOutFlow (g : Graph) (v : VertexPtr) : Except Fault UInt64 :=
  if g.state ≠ .maxFlowComputed then .error .invalidArgument
  else match g.vertex v with
    | .error f => .error f
    | .ok vx => g.sumEdges (·.flow) vx.outEdges 0

end Verif.Tethys
