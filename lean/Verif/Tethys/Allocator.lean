import Verif.Tethys.Graph

/-!
# The allocator of Tethys

Model of `lib/tethys/tethys_allocator.cpp` and
`lib/include/sse/schemes/tethys/details/tethys_allocator.hpp`.
-/

namespace Verif.Tethys

/-- `kEmptyIndexValue` (tethys_allocator.hpp L53) -/
def emptyIndex : UInt64 := UInt64.ofNat (2 ^ 64 - 1)

/-- `TethysAllocator` (tethys_allocator.hpp L31-58). The `std::set` of stashed edges is a list. -/
structure Allocator where
  graph : Graph
  stashed : List EdgePtr
  tableSize : Nat
  page : UInt64
  allocated : Bool

/-- `TethysAllocator(table_size, page_size)` (tethys_allocator.cpp L18-23) -/
def Allocator.new (tableSize : Nat) (page : UInt64) : Except Fault Allocator :=
  match Graph.new tableSize with
  | .error f => .error f
  | .ok g => .ok ⟨g, [], tableSize, page, false⟩

/-- A list given to the allocator: the two buckets of its key, its length and its index -/
structure ListInfo where
  h0 : Nat
  h1 : Nat
  len : UInt64
  index : UInt64
deriving DecidableEq, Repr

/-- `TethysAllocator::insert` (tethys_allocator.cpp L46-64). The field `orientation` of the key is
not used by the allocator. -/
def Allocator.insert (a : Allocator) (l : ListInfo) : Except Fault Allocator :=
  if a.allocated then .error .invalidArgument
  else if l.index = emptyIndex then .error .invalidArgument
  else if l.len > a.page then .error .invalidArgument
  else match a.graph.addEdge l.index l.len l.h0 l.h1 with
    | .error f => .error f
    | .ok g => .ok { a with graph := g }

/-- Step 1 of `allocate` (tethys_allocator.cpp L94-108), on the given vertices -/
def addSlack (page : UInt64) : List Nat → Graph → Except Fault Graph
  | [], g => .ok g
  | i :: is, g =>
    match g.vertexOutCapacity (.inner i) with
    | .error f => .error f
    | .ok d =>
      if d > page then
        match g.addEdgeFromSource emptyIndex (d - page) i with
        | .error f => .error f
        | .ok g' => addSlack page is g'
      else if d < page then
        match g.addEdgeToSink emptyIndex (page - d) i with
        | .error f => .error f
        | .ok g' => addSlack page is g'
      else addSlack page is g

/-- State of step 5 (tethys_allocator.cpp L132-134): the edges, `load` and `stashed_edges` -/
structure Trim where
  edges : List Edge
  load : UInt64
  stashed : List EdgePtr

/-- `e.flow = x`, or `e.rec_flow = x` -/
def Edge.setFlow (e : Edge) (recip : Bool) (x : UInt64) : Edge :=
  if recip then { e with recFlow := x } else { e with flow := x }

/-- One of the two loops of step 5 over the edges of a vertex: the incoming ones
(tethys_allocator.cpp L136-156, `recip = true`), then the outgoing ones (L158-175,
`recip = false`) -/
def trimScan (page : UInt64) (recip : Bool) : List EdgePtr → Trim → Except Fault Trim
  | [], t => .ok t
  | p :: ps, t =>
    match t.edges[p.index]? with
    | none => .error .outOfBounds
    | some e =>
      if e.valueIndex = emptyIndex then trimScan page recip ps t
      else if t.load + e.flowAlong recip > page then
        trimScan page recip ps
          ⟨t.edges.set p.index (e.setFlow recip (page - t.load)), page, p :: t.stashed⟩
      else trimScan page recip ps { t with load := t.load + e.flowAlong recip }

/-- Step 5 of `allocate` (tethys_allocator.cpp L131-176), on the given vertices -/
def trimVertices (page : UInt64) : List Vertex → List Edge → List EdgePtr →
    Except Fault (List Edge × List EdgePtr)
  | [], es, st => .ok (es, st)
  | v :: vs, es, st =>
    match trimScan page true v.inEdges ⟨es, 0, st⟩ with
    | .error f => .error f
    | .ok t =>
      match trimScan page false v.outEdges t with
      | .error f => .error f
      | .ok t' => trimVertices page vs t'.edges t'.stashed

/-- `TethysAllocator::allocate` (tethys_allocator.cpp L66-179) -/
def Allocator.allocate (a : Allocator) : Except Fault Allocator :=
  if a.allocated then .error .invalidArgument
  else match addSlack a.page (List.range a.tableSize) a.graph with
    | .error f => .error f
    | .ok g =>
      match g.computeResidualMaxflow with
      | .error f => .error f
      | .ok g' =>
        match trimVertices a.page g'.vertices g'.edges a.stashed with
        | .error f => .error f
        | .ok (es, st) =>
          .ok { a with graph := { g' with edges := es }, stashed := st, allocated := true }

/-- Insertions in order -/
def Allocator.insertAll (a : Allocator) : List ListInfo → Except Fault Allocator
  | [] => .ok a
  | l :: ls => match a.insert l with
    | .error f => .error f
    | .ok a' => a'.insertAll ls

/-- Construction, insertions and allocation, as done by `TethysStoreBuilder`
(tethys_store_builder.hpp L99-140, L161-175) -/
def allocRun (tableSize : Nat) (page : UInt64) (ls : List ListInfo) : Except Fault Allocator :=
  match Allocator.new tableSize page with
  | .error f => .error f
  | .ok a => match a.insertAll ls with
    | .error f => .error f
    | .ok a' => a'.allocate

end Verif.Tethys
