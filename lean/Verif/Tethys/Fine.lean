import Verif.Tethys.Components

/-!
# The parallel computation of the flow, edge by edge

`Verif.Tethys.Components` takes a whole search as one step of a job. Here the searches of
`parallel_compute_residual_maxflow` (`lib/tethys/tethys_graph.cpp` L146-324, L445-513) are interleaved
with the other jobs: every iteration of the loops of `find_source_sink_path` is a step, which reads
the flows and the parent edges of the shared graph when it is made. Nothing synchronises a read with
the writes of the other jobs, so a job may see any value in the flows of an edge that another job has
written or is writing.
-/

namespace Verif.Tethys

/-- Where a search is: at the head of the `while` loop (tethys_graph.cpp L159), in one of the two
`for` loops with the edges that are left (L172, L206), or on the way back from the sink with the path
so far and its flow (L267-279). The code walks back twice, first for the flow and the length, then for
the path (L303-313); the model builds the path in the first walk. -/
inductive Phase where
  | loop
  | scan (recip : Bool) (v : VertexPtr) (ptrs : List EdgePtr)
  | walk (v : VertexPtr) (path : List EdgePtr) (c : UInt64)
deriving DecidableEq

/-- The local variables of a search (tethys_graph.cpp L149-155); the parent edges are in the shared
graph. -/
structure Search where
  stack : List VertexPtr
  visited : List VertexPtr
  sinkParent : Option EdgePtr
  phase : Phase
deriving DecidableEq

/-- State of the job of a component (tethys_graph.cpp L465-491), with the searches in progress -/
inductive FJob where
  | find
  | search (l : Search)
  | update (c : UInt64) (path : List EdgePtr)
  | done
deriving DecidableEq

/-- `EdgeVec::operator[]` (tethys_graph.hpp L129-137) on the edges as the job sees them -/
def look (seen : List Edge) (p : EdgePtr) : Except Fault Edge :=
  match seen[p.index]? with
  | some e => .ok e
  | none => .error .outOfBounds

/-- The head of the `while` loop (tethys_graph.cpp L159-172), and what follows the loop: the edge to
the sink (L254-265), or the return without a path (L320-323), which ends the job (L472-475) -/
def headStep (seen : List Edge) (g : Graph) (l : Search) : Except Fault (Graph × FJob) :=
  match l.sinkParent with
  | some p =>
    match look seen p with
    | .error f => .error f
    | .ok e => .ok (g, .search { l with
        phase := .walk (e.tail p.recip) [p]
          (stdMin (e.flowAlong p.recip) (UInt64.ofNat (2 ^ 64 - 1))) })
  | none =>
    match l.stack with
    | [] => .ok (g, .done)
    | v :: rest =>
      match g.vertex v with
      | .error f => .error f
      | .ok vx => .ok (g, .search { l with stack := rest, phase := .scan false v vx.outEdges })

/-- One iteration of a `for` loop (tethys_graph.cpp L172-202, L206-244) -/
def edgeStep (seen : List Edge) (g : Graph) (k : Nat) (recip : Bool) (v : VertexPtr) (p : EdgePtr)
    (ps : List EdgePtr) (l : Search) : Except Fault (Graph × FJob) :=
  match look seen p with
  | .error f => .error f
  | .ok e =>
    if e.flowAlong recip > 0 then
      match g.vertex (e.head recip) with
      | .error f => .error f
      | .ok dest =>
        let arc : EdgePtr := if recip then p.reciprocal else p
        match e.head recip with
        | .sink => .ok (g, .search { l with sinkParent := some arc, phase := .scan recip v [] })
        | .source => .ok (g, .search { l with phase := .scan recip v ps })
        | .inner i =>
          if VertexPtr.inner i ∉ l.visited ∧ dest.component = k then
            .ok ({ g with parents := setParent g.parents (.inner i) arc },
              .search { l with
                stack := .inner i :: l.stack
                visited := .inner i :: l.visited
                phase := .scan recip v ps })
          else .ok (g, .search { l with phase := .scan recip v ps })
    else .ok (g, .search { l with phase := .scan recip v ps })

/-- One step back on the parent edges (tethys_graph.cpp L267-279), or the return of the path (L316) -/
def walkStep (seen : List Edge) (g : Graph) (v : VertexPtr) (path : List EdgePtr) (c : UInt64)
    (l : Search) : Except Fault (Graph × FJob) :=
  match g.parents v with
  | none => .ok (g, .update c path)
  | some p =>
    match look seen p with
    | .error f => .error f
    | .ok e => .ok (g, .search { l with
        phase := .walk (e.tail p.recip) (p :: path) (stdMin (e.flowAlong p.recip) c) })

/-- One step of a search (tethys_graph.cpp L146-324) -/
def searchStep (seen : List Edge) (g : Graph) (k : Nat) (l : Search) : Except Fault (Graph × FJob) :=
  match l.phase with
  | .loop => headStep seen g l
  | .scan recip v (p :: ps) => edgeStep seen g k recip v p ps l
  | .scan false v [] =>
    match g.vertex v with
    | .error f => .error f
    | .ok vx => .ok (g, .search { l with phase := .scan true v vx.inEdges })
  | .scan true _ [] => .ok (g, .search { l with phase := .loop })
  | .walk v path c => walkStep seen g v path c l

/-- One step of a job (tethys_graph.cpp L465-491). The update of an edge reads it and writes it back
(`EdgeVec::update_flow`, tethys_graph.hpp L148-159). -/
def fineStep (seen : List Edge) (g : Graph) (k : Nat) : FJob → Except Fault (Graph × FJob)
  | .done => .ok (g, .done)
  | .find => .ok (g, .search ⟨[.source], [], none, .loop⟩)
  | .search l => searchStep seen g k l
  | .update _ [] => .ok (g, .find)
  | .update c (p :: ps) =>
    match look seen p with
    | .error f => .error f
    | .ok e => .ok ({ g with edges := g.edges.set p.index (e.update p.recip c) },
        if ps.isEmpty then .find else .update c ps)

/-- The edge a job writes in its next step -/
def FJob.writes : FJob → Option Nat
  | .update _ (p :: _) => some p.index
  | _ => none

/-- State of the parallel computation. `wrote` records which job wrote which edge. -/
structure Fine where
  graph : Graph
  jobs : List FJob
  wrote : List (Nat × Nat)

/-- What a job may see of the edges: their ends and capacities, which no job writes, and the flows;
except that in the flows of an edge that another job has written or is writing it may see anything. -/
structure Fine.Sees (s : Fine) (k : Nat) (seen : List Edge) : Prop where
  fixed : seen.map (fun e => (e.valueIndex, e.capacity, e.start, e.stop)) =
    s.graph.edges.map (fun e => (e.valueIndex, e.capacity, e.start, e.stop))
  flows : ∀ i : Nat, seen[i]? = s.graph.edges[i]? ∨
    ∃ k', k' ≠ k ∧ ((k', i) ∈ s.wrote ∨ ∃ j, s.jobs[k']? = some j ∧ j.writes = some i)

/-- One step of some unfinished job -/
inductive Fine.Step : Fine → Fine → Prop
  | mk {s : Fine} {k : Nat} {j j' : FJob} {g' : Graph} {seen : List Edge} : s.jobs[k]? = some j →
      j ≠ .done → s.Sees k seen → fineStep seen s.graph k j = .ok (g', j') →
      Fine.Step s ⟨g', s.jobs.set k j', j.writes.toList.map (k, ·) ++ s.wrote⟩

/-- Sequences of steps, with their length -/
inductive Fine.Steps : Nat → Fine → Fine → Prop
  | refl (s : Fine) : Fine.Steps 0 s s
  | tail {n : Nat} {s s' s'' : Fine} : Fine.Steps n s s' → Fine.Step s' s'' → Fine.Steps (n + 1) s s''

/-- A job is about to access memory out of bounds. -/
def Fine.Faulty (s : Fine) : Prop :=
  ∃ k j seen f, s.jobs[k]? = some j ∧ s.Sees k seen ∧ fineStep seen s.graph k j = .error f

/-- All the jobs are finished (tethys_graph.cpp L500-503). -/
def Fine.Finished (s : Fine) : Prop := ∀ j ∈ s.jobs, j = .done

/-- The graph returned once all the jobs are finished (tethys_graph.cpp L512) -/
def Fine.result (s : Fine) : Graph := { s.graph with state := .residualComputed }

/-- The state when the jobs are enqueued (tethys_graph.cpp L445-496) -/
def Graph.fineInit (g : Graph) : Except Fault Fine :=
  if g.state ≠ .building then .error .invalidArgument
  else match g.computeConnectedComponents with
    | .error f => .error f
    | .ok g' => .ok ⟨g', List.replicate (g'.nComponents + 1) .find, []⟩

end Verif.Tethys
