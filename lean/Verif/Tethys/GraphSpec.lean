import Verif.Tethys.Graph
import Mathlib.Algebra.BigOperators.Group.List.Basic

/-!
# Specification of flows

Independent of the residual graph and of the algorithm: a network with a flow is a list of edges
with endpoints, capacity and flow.
-/

namespace Verif.Tethys.Spec

/-- An edge of a network, and the flow on it -/
structure FlowEdge where
  start : VertexPtr
  stop : VertexPtr
  cap : Nat
  flow : Nat
deriving DecidableEq, Repr

/-- The edge without its flow -/
def FlowEdge.pipe (e : FlowEdge) : VertexPtr × VertexPtr × Nat := (e.start, e.stop, e.cap)

/-- Flow entering a vertex -/
def inflow (es : List FlowEdge) (v : VertexPtr) : Nat :=
  ((es.filter (fun e => e.stop = v)).map FlowEdge.flow).sum

/-- Flow leaving a vertex -/
def outflow (es : List FlowEdge) (v : VertexPtr) : Nat :=
  ((es.filter (fun e => e.start = v)).map FlowEdge.flow).sum

/-- A flow: capacities are respected, and each inner vertex sends what it receives. -/
structure IsFlow (es : List FlowEdge) : Prop where
  cap : ∀ e ∈ es, e.flow ≤ e.cap
  conserved : ∀ i, inflow es (.inner i) = outflow es (.inner i)

/-- The value of a flow: what leaves the source, minus what comes back -/
def value (es : List FlowEdge) : Int := (outflow es .source : Int) - inflow es .source

/-- The network of a graph whose flow is computed -/
def network (g : Graph) : List FlowEdge :=
  g.edges.map (fun e => ⟨e.start, e.stop, e.capacity.toNat, e.flow.toNat⟩)

/-- The edge of index `i` has an end in the component `k`. -/
def Touches (g : Graph) (i k : Nat) : Prop :=
  ∃ e v vx, g.edges[i]? = some e ∧ (e.start = .inner v ∨ e.stop = .inner v) ∧
    g.vertices[v]? = some vx ∧ vx.component = k

end Verif.Tethys.Spec
