import Verif.Model.PDAG

/-!
Model of cdmir/discovery/constraint/adjacency_search.py. The conditional independence test is a parameter: a function of
the two names, the conditioning tuple and the state of the test object (its cache), returning the first component of the
answer (the p-value) and the new state, or raising. p-values are of any type with a decidable `≤`.
-/

namespace Cdmir
variable {α : Type} [DecidableEq α]

/-- Dictionary of separating sets: adjacency_search.py L27, L74, dag2cpdag.py L10. -/
abbrev Sep (α : Type) := Dict (α × α) (List α)

/-- adjacency_search.py L27, L74 and dag2cpdag.py L10: the initial `sep_set`. -/
def sepInit (nodes : List α) : Sep α := (perms2 nodes).foldl (fun d p => dset d p []) []

/-- adjacency_search.py L43-44, L90-91 and dag2cpdag.py L16-17: both updates of `sep_set`. -/
def sepAdd (sep : Sep α) (u v : α) (z : List α) : Except Err (Sep α) := do
  let s ← dgetE sep (u, v)
  let sep1 := dset sep (u, v) (pyUnion s (pySet z))
  let t ← dgetE sep1 (v, u)
  pure (dset sep1 (v, u) (pyUnion t (pySet z)))

/-- A conditional independence test object as seen by the search: `indep_test.test(u, v, z)[0]`
(adjacency_search.py L39, L84), with the state of the object threaded through. -/
abbrev CITest (α σ P : Type) := α → α → List α → σ → Except Err (P × σ)

section
variable {σ P : Type} [LE P] [DecidableLE P]

/-- The locals that change inside one level of `adjacency_search` (adjacency_search.py L31-44): `remove_edges`,
`sep_set`, and the state of the test object. -/
structure LevelState (α σ : Type) where
  rem : List (α × α)
  sep : Sep α
  st : σ

/-- adjacency_search.py L39-44: body of the loop over `nodes_z`. -/
def searchZ (test : CITest α σ P) (alpha : P) (u v : α) (s : LevelState α σ) (z : List α) :
    Except Err (LevelState α σ) := do
  let (p, st) ← test u v z s.st
  if alpha ≤ p then
    let sep ← sepAdd s.sep u v z
    pure { rem := s.rem ++ [(u, v)], sep := sep, st := st }
  else pure { s with st := st }

/-- adjacency_search.py L33-44: body of the loop over ordered pairs. -/
def searchPair (test : CITest α σ P) (alpha : P) (g : Graph α) (k : Nat) (s : LevelState α σ) (p : α × α) :
    Except Err (LevelState α σ) := do
  if !(← g.isConnected p.1 p.2) then pure s
  else
    let adj ← g.getNeighbours p.1
    let adj := if p.2 ∈ adj then adj.erase p.2 else adj
    (combinations adj k).foldlM (searchZ test alpha p.1 p.2) s

/-- adjacency_search.py L46-48: body of the loop over `remove_edges`. -/
def removePair (g : Graph α) (p : α × α) : Except Err (Graph α) := do
  if ← g.isConnected p.1 p.2 then g.removeEdge p.1 p.2 else pure g

/-- adjacency_search.py L31-50: one level of the search. -/
def searchLevel (test : CITest α σ P) (alpha : P) (names : List α) (s : Graph α × Sep α × σ) (k : Nat) :
    Except Err (Graph α × Sep α × σ) := do
  let r ← (perms2 names).foldlM (searchPair test alpha s.1 k) { rem := [], sep := s.2.1, st := s.2.2 }
  let g ← r.rem.foldlM removePair s.1
  pure (g, r.sep, r.st)

/-- adjacency_search.py L7-52: `adjacency_search`. Also returns the state of the test object afterwards. -/
def adjacencySearch (test : CITest α σ P) (names : List α) (alpha : P) (st : σ) :
    Except Err (Graph α × Sep α × σ) := do
  let g ← Graph.init .pdag names
  let g ← g.createCompleteUndirectedGraph
  (List.range (names.length - 1)).foldlM (searchLevel test alpha names) (g, sepInit g.nodes, st)

/-- The locals of `get_sep_result` (adjacency_search.py L78-97): the union collected in `sep_result` (`none` for
`None`), `sep_set`, and the state of the test object. -/
structure FastState (α σ : Type) where
  res : Option (List α)
  sep : Sep α
  st : σ

/-- adjacency_search.py L84-91: body of the loop of `sep_search`. -/
def fastZ (test : CITest α σ P) (alpha : P) (u v : α) (s : FastState α σ) (z : List α) :
    Except Err (FastState α σ) := do
  let (p, st) ← test u v z s.st
  if alpha ≤ p then
    let res := match s.res with
      | none => pySet z
      | some r => pyUnion r (pySet z)
    let sep ← sepAdd s.sep u v z
    pure { res := some res, sep := sep, st := st }
  else pure { s with st := st }

/-- adjacency_search.py L78-97: `get_sep_result`. `combinations` reads its argument to the end before the first test, and
the tests do not change the graph. -/
def fastPair (test : CITest α σ P) (alpha : P) (g : Graph α) (k : Nat) (u v : α) (s : FastState α σ) :
    Except Err (FastState α σ) := do
  let nu ← g.getNeighbours u
  let s ← (combinations (nu.filter (fun w => w ≠ v)) k).foldlM (fastZ test alpha u v) s
  let nv ← g.getNeighbours v
  (combinations (nv.filter (fun w => w ≠ u)) k).foldlM (fastZ test alpha u v) s

/-- adjacency_search.py L99-105: one step of the loop over `map(get_sep_result, nodes_u, nodes_v)` for the pair of
positions `p`. The two generator expressions of L99 iterate over two generators `g.edges` (graph.py L70-77), which visit
the same pairs of positions and look the edge up when they get there; nothing changes the graph between the two lookups,
so both see an edge or both see none. -/
def fastStep (test : CITest α σ P) (alpha : P) (k : Nat) (s : Graph α × Sep α × σ) (p : α × α) :
    Except Err (Graph α × Sep α × σ) := do
  match ← s.1.getEdge p.1 p.2 with
  | none => pure s
  | some e =>
    let r ← fastPair test alpha s.1 k e.u e.v { res := none, sep := s.2.1, st := s.2.2 }
    match r.res with
    | none => pure (s.1, r.sep, r.st)
    | some z =>
      let g ← s.1.removeEdge e.u e.v
      let t ← dgetE r.sep (e.u, e.v)
      pure (g, dset r.sep (e.u, e.v) (pyUnion t z), r.st)

/-- adjacency_search.py L77-105: one level of `fast_adjacency_search`. -/
def fastLevel (test : CITest α σ P) (alpha : P) (s : Graph α × Sep α × σ) (k : Nat) :
    Except Err (Graph α × Sep α × σ) :=
  (pairs s.1.nodeList).foldlM (fastStep test alpha k) s

/-- adjacency_search.py L55-106: `fast_adjacency_search`. -/
def fastAdjacencySearch (test : CITest α σ P) (names : List α) (alpha : P) (st : σ) :
    Except Err (Graph α × Sep α × σ) := do
  let g ← Graph.init .pdag names
  let g ← g.createCompleteUndirectedGraph
  (List.range (names.length - 1)).foldlM (fastLevel test alpha) (g, sepInit g.nodes, st)

/-- The attributes a `PC` object has after `fit` (pc.py L43-47): `skeleton`, `sep_set`, `causal_graph`. -/
structure PCResult (α : Type) where
  skeleton : Graph α
  sepSet : Sep α
  causal : Graph α

/-- pc.py L43-47: `PC.fit` after the construction of the test object, for a given search method (pc.py L13, L27).
`copy.deepcopy` is the identity on values. -/
def pcFit (search : CITest α σ P → List α → P → σ → Except Err (Graph α × Sep α × σ)) (test : CITest α σ P)
    (names : List α) (alpha : P) (st : σ) : Except Err (PCResult α × σ) := do
  let (g, sep, st) ← search test names alpha st
  let g1 ← g.rule0 sep
  let g2 ← g1.orientByMeekRules
  pure ({ skeleton := g, sepSet := sep, causal := g2 }, st)

end
end Cdmir
