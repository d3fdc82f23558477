import Verif.Model.Adjacency
import Verif.Model.DiGraph

/-! Model of cdmir/graph/dag2cpdag.py. -/

namespace Cdmir
variable {α : Type} [DecidableEq α]

/-- dag2cpdag.py L15-19: body of the loop over `nodes_z`. `nodes_z` is a tuple. -/
def cpdagZ (dag : Graph α) (u v : α) (s : Graph α × Sep α) (z : List α) : Except Err (Graph α × Sep α) := do
  if ← dag.isDSeparate u v (.reiterable z) then
    let sep ← sepAdd s.2 u v z
    if ← s.1.isConnected u v then
      let g ← s.1.removeEdge u v
      pure (g, sep)
    else pure (s.1, sep)
  else pure s

/-- dag2cpdag.py L13-19: the loops over `condition_size` and `nodes_z`. `setOrder` is the order in which Python iterates
over the set `pdag.node_set - {node_u, node_v}`. -/
def cpdagPair (setOrder : List α → List α) (dag : Graph α) (n : Nat) (s : Graph α × Sep α) (p : α × α) :
    Except Err (Graph α × Sep α) :=
  (List.range (n - 1)).foldlM (fun s k =>
    (combinations (setOrder (s.1.nodeSet.filter (fun w => w ≠ p.1 ∧ w ≠ p.2))) k).foldlM (cpdagZ dag p.1 p.2) s) s

/-- dag2cpdag.py L7-19: everything before the orientation: the skeleton and the separating sets. -/
def cpdagSkeleton (setOrder : List α → List α) (dag : Graph α) : Except Err (Graph α × Sep α) := do
  let g ← Graph.init .pdag dag.nodes
  let g ← g.createCompleteUndirectedGraph
  (pairs g.nodes).foldlM (cpdagPair setOrder dag dag.numberOfNodes) (g, sepInit g.nodes)

/-- dag2cpdag.py L6-25: `dag2cpdag`. -/
def dag2cpdag (setOrder : List α → List α) (dag : Graph α) : Except Err (Graph α) := do
  let (g, sep) ← cpdagSkeleton setOrder dag
  let g1 ← g.rule0 sep
  g1.orientByMeekRules

end Cdmir
