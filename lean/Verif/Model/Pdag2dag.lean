import Verif.Model.PDAG
import Verif.Model.DiGraph

/-! Model of cdmir/graph/pdag2dag.py. Positions of nodes (the numpy index arrays) are represented by the nodes themselves:
node lists have no duplicates, and every index array is sorted, so it is a sublist of the node list. -/

namespace Cdmir
variable {α : Type} [DecidableEq α]

/-- pdag2dag.py L16-18: body of the first loop: drop the edge found at this pair of positions unless it is directed. The
generator `pdag_copy.edges` (graph.py L70-77) re-reads the graph at every pair. -/
def dropUndirected (g : Graph α) (p : α × α) : Except Err (Graph α) := do
  match ← g.getEdge p.1 p.2 with
  | none => pure g
  | some e =>
    if (e.mu = .arrow ∧ e.mv = .tail) ∨ (e.mu = .tail ∧ e.mv = .arrow) then pure g else g.removeEdge e.u e.v

/-- pdag2dag.py L52-59: `check2`, with `break` as short-circuit. -/
def check2 (g : Graph α) (ax : List α) : List α → Except Err Bool
  | [] => pure true
  | y :: t => do
    let bad ← filterE (fun z => do pure (!(← g.isConnected y z))) (ax.filter (fun z => z ≠ y))
    if bad.length ≠ 0 then pure false else check2 g ax t

/-- pdag2dag.py L28, L38: positions joined to `x` by tails at both ends. -/
def tailBoth (g : Graph α) (x : α) : Except Err (List α) := do
  let a ← filterE (fun t => g.isTail x t) g.nodes
  let b ← filterE (fun t => g.isTail t x) g.nodes
  pure (a.filter (fun t => t ∈ b))

/-- pdag2dag.py L25-35: whether `sign` reaches 2 for the node `x`; `removed` are the nodes whose `inde` is 1. -/
def sinkSign (g : Graph α) (removed : List α) (x : α) : Except Err Bool := do
  let outs ← filterE (fun p => g.isArrow x p) g.nodes
  if (outs.filter (fun p => p ∉ removed)).length = 0 then
    let nx := (← tailBoth g x).filter (fun p => p ∉ removed)
    let ins ← filterE (fun p => g.isArrow p x) g.nodes
    let ax := g.nodes.filter (fun p => ((p ∈ ins ∨ p ∈ outs) ∧ p ∉ removed) ∨ p ∈ nx)
    if nx.length > 0 then check2 g ax nx else pure true
  else pure false

/-- pdag2dag.py L39-40: body of the loop over the undirected neighbours of `x`. -/
def pointAt (x : α) (copy : Graph α) (y : α) : Except Err (Graph α) := do
  if !(← copy.isConnected y x) then copy.addEdge ⟨y, x, .tail, .arrow⟩ false else pure copy

/-- pdag2dag.py L24-41: body of the `for` loop. The state is `pdag_copy` and the removed nodes in the order of removal. -/
def elimNode (g : Graph α) (s : Graph α × List α) (x : α) : Except Err (Graph α × List α) := do
  if x ∈ s.2 then pure s
  else if ← sinkSign g s.2 x then
    let copy ← (← tailBoth g x).foldlM (pointAt x) s.1
    pure (copy, s.2 ++ [x])
  else pure s

/-- pdag2dag.py L22-41: the `while` loop, at most the given number of times; `Err.fuel` when that does not suffice. -/
def elimLoop (g : Graph α) : Nat → Graph α × List α → Except Err (Graph α)
  | n, s =>
    if ∀ x ∈ g.nodes, x ∈ s.2 then pure s.1
    else match n with
      | 0 => throw .fuel
      | n + 1 => do elimLoop g n (← g.nodes.foldlM (elimNode g) s)

/-- pdag2dag.py L45-47: body of the last loop. -/
def addOriented (d : Graph α) (e : Edge α) : Except Err (Graph α) :=
  if e.mu = .arrow ∧ e.mv = .tail then d.addEdge ⟨e.v, e.u, e.mv, e.mu⟩ true else d.addEdge e true

/-- pdag2dag.py L11-49: `pdag2dag`, giving the `while` loop at most `fuel` rounds: the call returns iff some amount of
fuel is enough, and runs forever iff every amount ends in `Err.fuel`. -/
def pdag2dag (fuel : Nat) (g : Graph α) : Except Err (Graph α) := do
  let copy ← (pairs g.nodes).foldlM dropUndirected g
  let copy ← elimLoop g fuel (copy, [])
  let d ← Graph.init .digraph copy.nodes
  (← copy.edges).foldlM addOriented d

end Cdmir
