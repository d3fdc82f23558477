import Verif.Model.Graph

/-!
Model of cdmir/graph/pdag.py (class `PDAG`; its `add_edge` override is in Model/Graph.lean). Logging is dropped. When a
rule raises (never for the objects of the theorems), the partially modified graph is dropped.
-/

namespace Cdmir
namespace Graph
variable {α : Type} [DecidableEq α]

/-- The statement pair `remove_edge(a, b); add_edge(Edge(a, b, Tail, Arrow))`: pdag.py L27-28, L29-30, L54-55, L82-83,
L104-105, L127-128. -/
def orient (g : Graph α) (a b : α) : Except Err (Graph α) := do
  let g1 ← g.removeEdge a b
  g1.addEdge ⟨a, b, .tail, .arrow⟩

/-- pdag.py L13-15: `create_complete_undirected_graph`. -/
def createCompleteUndirectedGraph (g : Graph α) : Except Err (Graph α) :=
  (pairs g.nodes).foldlM (fun g p => g.addEdge ⟨p.1, p.2, .tail, .tail⟩) g

/-- pdag.py L21-33: body of the loop over `node_w` of `rule0`. -/
def rule0Body (sep : Dict (α × α) (List α)) (u v : α) (g : Graph α) (w : α) : Except Err (Graph α) := do
  if w = u ∨ w = v then pure g
  else if !(← g.isConnected u w) then pure g
  else if !(← g.isConnected v w) then pure g
  else
    let s ← dgetE sep (u, v)
    if w ∈ s then pure g
    else
      let g1 ← g.orient u w
      g1.orient v w

/-- pdag.py L17-33: `rule0`. `sep_set` is a dictionary from ordered pairs to sets. -/
def rule0 (g : Graph α) (sep : Dict (α × α) (List α)) : Except Err (Graph α) :=
  (pairs g.nodes).foldlM (fun g p => do
    if ← g.isConnected p.1 p.2 then pure g
    else g.nodes.foldlM (rule0Body sep p.1 p.2) g) g

/-- pdag.py L50-58: body of the loop over `node_w` of `rule1`; the flag is `changed`. -/
def rule1Body (u v : α) (s : Graph α × Bool) (w : α) : Except Err (Graph α × Bool) := do
  if w = u ∨ w = v then pure s
  else if ← s.1.isConnected u w then pure s
  else if ← s.1.isFullyUndirected v w then
    let g' ← s.1.orient v w
    pure (g', true)
  else pure s

/-- pdag.py L35-59: `rule1`. -/
def rule1 (g : Graph α) : Except Err (Graph α × Bool) :=
  (perms2 g.nodes).foldlM (fun s p => do
    if ← s.1.isFullyDirected p.1 p.2 then s.1.nodes.foldlM (rule1Body p.1 p.2) s
    else pure s) (g, false)

/-- pdag.py L76-86: body of the loop over `node_w` of `rule2`. -/
def rule2Body (u v : α) (s : Graph α × Bool) (w : α) : Except Err (Graph α × Bool) := do
  if w = u ∨ w = v then pure s
  else if !(← s.1.isFullyDirected v w) then pure s
  else if ← s.1.isFullyUndirected u w then
    let g' ← s.1.orient u w
    pure (g', true)
  else pure s

/-- pdag.py L61-87: `rule2`. -/
def rule2 (g : Graph α) : Except Err (Graph α × Bool) :=
  (perms2 g.nodes).foldlM (fun s p => do
    if ← s.1.isFullyDirected p.1 p.2 then s.1.nodes.foldlM (rule2Body p.1 p.2) s
    else pure s) (g, false)

/-- pdag.py L97 and L119: `is_fully_undirected(u, v) and is_fully_directed(v, w)`. -/
def undThenDir (g : Graph α) (u v w : α) : Except Err Bool := do
  if ← g.isFullyUndirected u v then g.isFullyDirected v w else pure false

/-- pdag.py L99-108: body of the loop over `node_x` of `rule3`. -/
def rule3X (u w v : α) (s : Graph α × Bool) (x : α) : Except Err (Graph α × Bool) := do
  if x = u ∨ x = v ∨ x = w then pure s
  else if !(← s.1.undThenDir u x w) then pure s
  else
    let g' ← s.1.orient u w
    pure (g', true)

/-- pdag.py L94-108: body of the loop over `node_v` of `rule3`. -/
def rule3V (u w : α) (s : Graph α × Bool) (v : α) : Except Err (Graph α × Bool) := do
  if v = u ∨ v = w then pure s
  else if !(← s.1.undThenDir u v w) then pure s
  else s.1.nodes.foldlM (rule3X u w v) s

/-- pdag.py L89-109: `rule3`. -/
def rule3 (g : Graph α) : Except Err (Graph α × Bool) :=
  (perms2 g.nodes).foldlM (fun s p => do
    if ← s.1.isFullyUndirected p.1 p.2 then s.1.nodes.foldlM (rule3V p.1 p.2) s
    else pure s) (g, false)

/-- pdag.py L121-131: body of the loop over `node_x` of `rule4`. -/
def rule4X (u w v : α) (s : Graph α × Bool) (x : α) : Except Err (Graph α × Bool) := do
  if x = u ∨ x = v ∨ x = w then pure s
  else if !(← s.1.isFullyUndirected u x) then pure s
  else if !(← s.1.isFullyUndirected x w) then pure s
  else if ← s.1.isConnected v x then
    let g' ← s.1.orient x w
    pure (g', true)
  else pure s

/-- pdag.py L116-131: body of the loop over `node_v` of `rule4`. -/
def rule4V (u w : α) (s : Graph α × Bool) (v : α) : Except Err (Graph α × Bool) := do
  if v = u ∨ v = w then pure s
  else if !(← s.1.undThenDir u v w) then pure s
  else s.1.nodes.foldlM (rule4X u w v) s

/-- pdag.py L111-132: `rule4`. -/
def rule4 (g : Graph α) : Except Err (Graph α × Bool) :=
  (perms2 g.nodes).foldlM (fun s p => do
    if ← s.1.isConnected p.1 p.2 then pure s
    else s.1.nodes.foldlM (rule4V p.1 p.2) s) (g, false)

/-- pdag.py L137-141: one pass of the loop of `orient_by_meek_rules`. -/
def meekPass (g : Graph α) : Except Err (Graph α × Bool) := do
  let (g1, c1) ← g.rule1
  let (g2, c2) ← g1.rule2
  let (g3, c3) ← g2.rule3
  let (g4, c4) ← g3.rule4
  pure (g4, c1 || c2 || c3 || c4)

/-- pdag.py L136-141: `while changed`, with a bound on the number of passes (`Err.fuel` when it is used up). -/
def meekLoop : Nat → Graph α → Except Err (Graph α)
  | 0, _ => .error .fuel
  | n + 1, g => do
    let (g', c) ← g.meekPass
    if c then meekLoop n g' else pure g'

/-- pdag.py L134-141: `orient_by_meek_rules`. The bound is one more than the number of pairs of nodes; Props/PDAG.lean
shows that it is never used up and that a larger one gives the same result. -/
def orientByMeekRules (g : Graph α) : Except Err (Graph α) := meekLoop ((pairs g.nodes).length + 1) g

end Graph
end Cdmir
