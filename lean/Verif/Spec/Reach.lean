import Verif.Model.Graph

/-! Specification vocabulary for the graph properties: objects a caller can build. No helper of the proofs is used. -/

namespace Cdmir

/-- Objects that can exist: a successful construction (graph.py L12-26) followed by any finite history of public
operations (graph.py L28-104), failing calls included. -/
def Reachable {α : Type} [DecidableEq α] (k : Kind) (g : Graph α) : Prop :=
  ∃ (l : List α) (g0 : Graph α) (ops : List (Op α)), Graph.init k l = .ok g0 ∧ g = g0.run ops

/-- Edges mentioned by a call (graph.py L48-63). -/
def Op.edgeArgs {α : Type} : Op α → List (Edge α)
  | .addEdge e _ => [e]
  | .addEdges es _ => es
  | _ => []

/-- As `Reachable`, with no call that asks for an edge from a node to itself (graph.py L48-63). -/
def ReachableSimple {α : Type} [DecidableEq α] (k : Kind) (g : Graph α) : Prop :=
  ∃ (l : List α) (g0 : Graph α) (ops : List (Op α)), Graph.init k l = .ok g0 ∧
    (∀ o ∈ ops, ∀ e ∈ o.edgeArgs, e.u ≠ e.v) ∧ g = g0.run ops

end Cdmir
