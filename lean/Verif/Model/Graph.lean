import Verif.Model.Py

/-!
Model of cdmir/graph/mark.py, cdmir/graph/edge.py and cdmir/graph/graph.py (class `Graph`), together with the
`add_edge` overrides of `DiGraph` (digraph.py L9-12) and `PDAG` (pdag.py L8-11), which `Graph.add_edges` dispatches to.
-/

namespace Cdmir

/-- cdmir/graph/mark.py L4-8: `class Mark(IntEnum)`. -/
inductive Mark where
  | tail
  | null
  | arrow
  | circle
  deriving DecidableEq, Repr

/-- cdmir/graph/mark.py L5-8: the integer values. -/
def Mark.toInt : Mark → Int
  | .tail => -1
  | .null => 0
  | .arrow => 1
  | .circle => 2

/-- cdmir/graph/mark.py L13-15: `pdag_marks`. -/
def Mark.pdagMarks : List Mark := [.tail, .arrow]

/-- cdmir/graph/edge.py L6-10: the named tuple `Edge`. -/
structure Edge (α : Type) where
  u : α
  v : α
  mu : Mark := .tail
  mv : Mark := .arrow
  deriving DecidableEq, Repr

/-- Class of a graph object: graph.py L11 `Graph`, digraph.py L8 `DiGraph`, pdag.py L7 `PDAG`.
Models `type(self)` and the dynamic dispatch of `add_edge`. -/
inductive Kind where
  | graph
  | digraph
  | pdag
  deriving DecidableEq, Repr

/-- graph.py L12-22: the attributes `node_list`, `node_set`, `_adj` of a graph object and its class. -/
structure Graph (α : Type) where
  kind : Kind
  nodeList : List α
  nodeSet : List α
  adj : Dict α (Dict α Mark)
  deriving DecidableEq, Repr

namespace Graph
variable {α : Type} [DecidableEq α]

/-- graph.py L12-26: `__init__` (with `nodes` given; `Graph()` is `init kind []`) and `init_graph`. The iteration
order over `node_set` only affects the order of the keys of `_adj`, which is never observed. -/
def init (kind : Kind) (nodes : List α) : Except Err (Graph α) :=
  let s := pySet nodes
  if s.length = nodes.length then
    .ok { kind := kind, nodeList := nodes, nodeSet := s, adj := s.map (fun u => (u, [])) }
  else .error .assertion

/-- graph.py L28-34: `add_node` (the warning is dropped). -/
def addNode (g : Graph α) (u : α) : Graph α :=
  if u ∈ g.nodeSet then g
  else { g with nodeSet := g.nodeSet ++ [u], nodeList := g.nodeList ++ [u], adj := dset g.adj u [] }

/-- graph.py L36-38: `add_nodes`. -/
def addNodes (g : Graph α) (us : List α) : Graph α := us.foldl addNode g

/-- graph.py L40-43: `nodes`. -/
def nodes (g : Graph α) : List α := g.nodeList

/-- graph.py L45-46: `number_of_nodes`. -/
def numberOfNodes (g : Graph α) : Nat := g.nodes.length

/-- graph.py L150-151: `check_missing_node`. -/
def checkMissingNode (g : Graph α) (u : α) : Except Err Unit :=
  if u ∈ g.nodeSet then .ok () else .error .assertion

/-- graph.py L153-154: `check_mark`. -/
def checkMark (m : Mark) (valid : List Mark) : Except Err Unit :=
  if m ∈ valid then .ok () else .error .assertion

/-- graph.py L110-113: `is_connected`. -/
def isConnected (g : Graph α) (u v : α) : Except Err Bool := do
  g.checkMissingNode u
  g.checkMissingNode v
  let au ← dgetE g.adj u
  if dhas au v then
    let av ← dgetE g.adj v
    pure (dhas av u)
  else pure false

/-- graph.py L58-59: the two dictionary updates of `add_edge`. The second one reads `_adj` after the first. -/
def storeEdge (g : Graph α) (e : Edge α) : Except Err (Graph α) := do
  let au ← dgetE g.adj e.u
  let adj1 := dset g.adj e.u (dset au e.v e.mv)
  let av ← dgetE adj1 e.v
  pure { g with adj := dset adj1 e.v (dset av e.u e.mu) }

/-- graph.py L48-59: `Graph.add_edge`. -/
def baseAddEdge (g : Graph α) (e : Edge α) (overwrite : Bool) : Except Err (Graph α) := do
  g.checkMissingNode e.u
  g.checkMissingNode e.v
  if !overwrite then
    if ← g.isConnected e.u e.v then throw .assertion
  g.storeEdge e

/-- `self.add_edge`: graph.py L48-59 (`Graph`), digraph.py L9-12 (`DiGraph`), pdag.py L8-11 (`PDAG`),
dispatched on the class of the object. -/
def addEdge (g : Graph α) (e : Edge α) (overwrite : Bool := false) : Except Err (Graph α) :=
  match g.kind with
  | .graph => g.baseAddEdge e overwrite
  | .digraph => do
      checkMark e.mu [.tail]
      checkMark e.mv [.arrow]
      g.baseAddEdge e overwrite
  | .pdag => do
      checkMark e.mu Mark.pdagMarks
      checkMark e.mv Mark.pdagMarks
      g.baseAddEdge e overwrite

/-- graph.py L61-63: `add_edges`. Returns the graph left behind and the exception, if one was raised: edges before
the failing one stay. -/
def addEdges (g : Graph α) (es : List (Edge α)) (overwrite : Bool := false) : Graph α × Option Err :=
  match es with
  | [] => (g, none)
  | e :: t =>
    match g.addEdge e overwrite with
    | .ok g' => addEdges g' t overwrite
    | .error x => (g, some x)

/-- graph.py L65-68: `get_edge`. -/
def getEdge (g : Graph α) (u v : α) : Except Err (Option (Edge α)) := do
  if ← g.isConnected u v then
    let av ← dgetE g.adj v
    let mu ← dgetE av u
    let au ← dgetE g.adj u
    let mv ← dgetE au v
    pure (some ⟨u, v, mu, mv⟩)
  else pure none

/-- graph.py L74-77: the body of the loops of `edges`, over the list of index pairs `i < j` in loop order, which is
`pairs node_list`. The truth value of an `Edge` (non-empty tuple) is true, of `None` false. -/
def edgesAux (g : Graph α) : List (α × α) → Except Err (List (Edge α))
  | [] => pure []
  | (u, v) :: t => do
    let e ← g.getEdge u v
    let r ← edgesAux g t
    match e with
    | some e => pure (e :: r)
    | none => pure r

/-- graph.py L70-77: `edges`, all elements of the generator for an unchanging graph. -/
def edges (g : Graph α) : Except Err (List (Edge α)) := g.edgesAux (pairs g.nodeList)

/-- graph.py L79-80: `number_of_edges`. -/
def numberOfEdges (g : Graph α) : Except Err Nat := do
  let es ← g.edges
  pure es.length

/-- graph.py L86-87: `for node_v in self.node_set: self._adj[node_v].pop(node_u, None)`. -/
def popFromAll (u : α) : List α → Dict α (Dict α Mark) → Except Err (Dict α (Dict α Mark))
  | [], adj => pure adj
  | v :: t, adj => do
    let av ← dgetE adj v
    popFromAll u t (dset adj v (ddel av u))

/-- graph.py L82-92: `remove_node`. `list.remove` deletes the first occurrence. -/
def removeNode (g : Graph α) (u : α) : Except Err (Graph α) := do
  g.checkMissingNode u
  let adj ← popFromAll u g.nodeSet g.adj
  let _ ← dgetE adj u
  pure { g with adj := ddel adj u, nodeSet := g.nodeSet.filter (· ≠ u), nodeList := g.nodeList.erase u }

/-- graph.py L94-95: `remove_nodes_from`, with the graph left behind when a removal raises. -/
def removeNodesFrom (g : Graph α) : List α → Graph α × Option Err
  | [] => (g, none)
  | u :: t =>
    match g.removeNode u with
    | .ok g' => removeNodesFrom g' t
    | .error x => (g, some x)

/-- graph.py L97-104: `remove_edge` (the warning is dropped). -/
def removeEdge (g : Graph α) (u v : α) : Except Err (Graph α) := do
  if ← g.isConnected u v then
    let au ← dgetE g.adj u
    let adj1 := dset g.adj u (ddel au v)
    let av ← dgetE adj1 v
    pure { g with adj := dset adj1 v (ddel av u) }
  else pure g

/-- graph.py L115-117: `get_neighbours`, all elements of the generator for an unchanging graph. -/
def getNeighbours (g : Graph α) (u : α) : Except Err (List α) := do
  let au ← dgetE g.adj u
  pure (dkeys au)

/-- graph.py L119-126: `is_arrow`, `is_tail`, `is_circle` share this body with different marks. -/
def hasMark (g : Graph α) (m : Mark) (u v : α) : Except Err Bool := do
  if ← g.isConnected u v then
    let au ← dgetE g.adj u
    let x ← dgetE au v
    pure (x = m)
  else pure false

/-- graph.py L119-120: `is_arrow`. -/
def isArrow (g : Graph α) (u v : α) : Except Err Bool := g.hasMark .arrow u v

/-- graph.py L122-123: `is_tail`. -/
def isTail (g : Graph α) (u v : α) : Except Err Bool := g.hasMark .tail u v

/-- graph.py L125-126: `is_circle`. -/
def isCircle (g : Graph α) (u v : α) : Except Err Bool := g.hasMark .circle u v

/-- graph.py L128-129: `is_fully_directed`. -/
def isFullyDirected (g : Graph α) (u v : α) : Except Err Bool := do
  if ← g.isConnected u v then
    if ← g.isTail v u then g.isArrow u v else pure false
  else pure false

/-- graph.py L131-132: `is_fully_undirected`. -/
def isFullyUndirected (g : Graph α) (u v : α) : Except Err Bool := do
  if ← g.isConnected u v then
    if ← g.isTail v u then g.isTail u v else pure false
  else pure false

/-- Position of a node in `node_list`: graph.py L136 `node_index`; for a list without duplicates the dictionary
comprehension maps a node to its only position. `KeyError` if absent. -/
def nodeIndex (g : Graph α) (u : α) : Except Err Nat :=
  if u ∈ g.nodeList then .ok (g.nodeList.idxOf u) else .error .key

/-- Integer matrix as a function of row and column: the `np.ndarray` of graph.py L137. -/
abbrev IMat := Nat → Nat → Int

/-- `adj_matrix[r, c] = x` (graph.py L141). -/
def IMat.put (m : IMat) (r c : Nat) (x : Int) : IMat := fun a b => if a = r ∧ b = c then x else m a b

/-- graph.py L140-141: the inner loop of `to_numpy` for the column `i` of `node_u`. -/
def toNumpyCol (g : Graph α) (i : Nat) : Dict α Mark → IMat → Except Err IMat
  | [], m => pure m
  | (v, x) :: t, m => do
    let r ← g.nodeIndex v
    toNumpyCol g i t (m.put r i x.toInt)

/-- graph.py L139-141: the outer loop of `to_numpy` over `enumerate(node_list)`. -/
def toNumpyLoop (g : Graph α) : Nat → List α → IMat → Except Err IMat
  | _, [], m => pure m
  | i, u :: t, m => do
    let au ← dgetE g.adj u
    let m' ← g.toNumpyCol i au m
    toNumpyLoop g (i + 1) t m'

/-- graph.py L134-145: `to_numpy`. The shape `(n, n)` is `number_of_nodes`. -/
def toNumpy (g : Graph α) (transpose : Bool := false) : Except Err IMat := do
  let m ← g.toNumpyLoop 0 g.nodeList (fun _ _ => 0)
  pure (if transpose then fun r c => m c r else m)

end Graph

/-- Public operations that change a graph (graph.py L28-104). -/
inductive Op (α : Type) where
  | addNode (u : α)
  | addNodes (us : List α)
  | addEdge (e : Edge α) (overwrite : Bool)
  | addEdges (es : List (Edge α)) (overwrite : Bool)
  | removeNode (u : α)
  | removeNodesFrom (us : List α)
  | removeEdge (u v : α)

/-- One call of a public operation (graph.py L28-104) whose exception, if any, is caught by the caller: the graph left
behind and the exception. -/
def Graph.step {α : Type} [DecidableEq α] (g : Graph α) : Op α → Graph α × Option Err
  | .addNode u => (g.addNode u, none)
  | .addNodes us => (g.addNodes us, none)
  | .addEdge e ow => match g.addEdge e ow with
    | .ok g' => (g', none)
    | .error x => (g, some x)
  | .addEdges es ow => g.addEdges es ow
  | .removeNode u => match g.removeNode u with
    | .ok g' => (g', none)
    | .error x => (g, some x)
  | .removeNodesFrom us => g.removeNodesFrom us
  | .removeEdge u v => match g.removeEdge u v with
    | .ok g' => (g', none)
    | .error x => (g, some x)

/-- A history of calls on one graph object (graph.py L28-104). -/
def Graph.run {α : Type} [DecidableEq α] (g : Graph α) (ops : List (Op α)) : Graph α :=
  ops.foldl (fun g o => (g.step o).1) g

end Cdmir
