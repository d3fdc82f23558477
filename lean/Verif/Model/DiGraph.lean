import Verif.Model.Graph

/-! Model of cdmir/graph/digraph.py (class `DiGraph`; `add_edge` is in Verif/Model/Graph.lean). -/

namespace Cdmir

/-- `[x for x in l if p(x)]` where `p` may raise: the generators of digraph.py L14-22 run to the end. -/
def filterE {α : Type} (p : α → Except Err Bool) : List α → Except Err (List α)
  | [] => pure []
  | x :: t => do
    let b ← p x
    let r ← filterE p t
    pure (if b then x :: r else r)

/-- `{k: x for k in ks}` (digraph.py L41, L59, L96, L99). -/
def dinit {κ ν : Type} [DecidableEq κ] (ks : List κ) (x : ν) : Dict κ ν := ks.foldl (fun d k => dset d k x) []

/-- digraph.py L49-51 and L62-65: append a key that has not been visited and mark it. -/
def pushNew {κ : Type} [DecidableEq κ] (s : List κ × Dict κ Bool) (key : κ) : Except Err (List κ × Dict κ Bool) := do
  let b ← dgetE s.2 key
  if !b then pure (s.1 ++ [key], dset s.2 key true) else pure s

/-- Argument `z: Iterable` of `get_reachable_nodes` (digraph.py L24): something that can be iterated repeatedly (list,
tuple, set) or a one-shot iterator. -/
inductive ZArg (α : Type) where
  | reiterable (l : List α)
  | iterator (l : List α)

/-- Members delivered by the first iteration over `z` (digraph.py L39). -/
def ZArg.first {α : Type} : ZArg α → List α
  | .reiterable l => l
  | .iterator l => l

/-- Members delivered after the first complete iteration: used by `for node in z` and `y not in z` (digraph.py L42, L69,
L71, L78). A one-shot iterator is exhausted by `deque(z)`. -/
def ZArg.later {α : Type} : ZArg α → List α
  | .reiterable l => l
  | .iterator _ => []

namespace Graph
variable {α : Type} [DecidableEq α]

/-- digraph.py L14-17: `get_parents`, all elements of the generator. -/
def getParents (g : Graph α) (u : α) : Except Err (List α) := do
  let ns ← g.getNeighbours u
  filterE (fun v => g.isArrow v u) ns

/-- digraph.py L19-22: `get_children`, all elements of the generator. -/
def getChildren (g : Graph α) (u : α) : Except Err (List α) := do
  let ns ← g.getNeighbours u
  filterE (fun v => g.isArrow u v) ns

/-- digraph.py L45-52: loop of phase I. Arguments: fuel, queue, visited, `a`. -/
def ancLoop (g : Graph α) : Nat → List α → Dict α Bool → List α → Except Err (List α)
  | _, [], _, a => pure a
  | 0, _ :: _, _, _ => throw .fuel
  | n + 1, y :: q, vis, a => do
    let s ← if y ∈ a then pure (q, vis) else do
      let ps ← g.getParents y
      ps.foldlM pushNew (q, vis)
    ancLoop g n s.1 s.2 (pyUnion a [y])

/-- digraph.py L39-52: phase I, the set `a`. -/
def ancestorsOf (g : Graph α) (z : ZArg α) : Except Err (List α) :=
  g.ancLoop (z.first.length + g.nodes.length) z.first
    (z.later.foldl (fun d k => dset d k true) (dinit g.nodes false)) []

/-- digraph.py L71-83: pushes made for a popped key; direction 1 is `true`, direction 0 is `false`. -/
def trailPushes (g : Graph α) (z a : List α) (y : α) (d : Bool) (s : List (α × Bool) × Dict (α × Bool) Bool) :
    Except Err (List (α × Bool) × Dict (α × Bool) Bool) :=
  if d = true ∧ y ∉ z then do
    let ps ← g.getParents y
    let s ← (ps.map (fun p => (p, true))).foldlM pushNew s
    let cs ← g.getChildren y
    (cs.map (fun c => (c, false))).foldlM pushNew s
  else if d = false then do
    let s ← if y ∉ z then do
        let cs ← g.getChildren y
        (cs.map (fun c => (c, false))).foldlM pushNew s
      else pure s
    if y ∈ a then do
      let ps ← g.getParents y
      (ps.map (fun p => (p, true))).foldlM pushNew s
    else pure s
  else pure s

/-- digraph.py L67-83: loop of phase II. Result: the nodes yielded and the exception that ends the generator, if any. -/
def trailLoop (g : Graph α) (z a : List α) : Nat → List (α × Bool) → Dict (α × Bool) Bool → List α × Option Err
  | _, [], _ => ([], none)
  | 0, _ :: _, _ => ([], some .fuel)
  | n + 1, (y, d) :: q, vis =>
    let out := if y ∈ z then [] else [y]
    match g.trailPushes z a y d (q, vis) with
    | .error e => (out, some e)
    | .ok s =>
      let r := trailLoop g z a n s.1 s.2
      (out ++ r.1, r.2)

/-- digraph.py L59: the keys `product(self.nodes, [0, 1])`. -/
def trailKeys (g : Graph α) : List (α × Bool) := g.nodes.flatMap (fun u => [(u, false), (u, true)])

/-- digraph.py L24-83: `get_reachable_nodes`, as the nodes yielded and the exception that ends the generator. -/
def getReachableNodes (g : Graph α) (x : α) (z : ZArg α) : List α × Option Err :=
  match g.ancestorsOf z with
  | .error e => ([], some e)
  | .ok a => g.trailLoop z.later a (2 * g.nodes.length + 1) [(x, true)]
      (dset (dinit g.trailKeys false) (x, true) true)

/-- digraph.py L85-87: `is_d_separate`. The membership test stops at the first hit, so a later exception of the
generator is not seen. -/
def isDSeparate (g : Graph α) (x y : α) (z : ZArg α) : Except Err Bool :=
  let r := g.getReachableNodes x z
  if y ∈ r.1 then .ok false
  else match r.2 with
    | some e => .error e
    | none => .ok true

/-- digraph.py L89-90: `in_degree`. -/
def inDegree (g : Graph α) (u : α) : Except Err Nat := do
  let ps ← g.getParents u
  pure ps.length

/-- digraph.py L92-93: `out_degree`. -/
def outDegree (g : Graph α) (u : α) : Except Err Nat := do
  let cs ← g.getChildren u
  pure cs.length

/-- The locals of `topo_sort` (digraph.py L96-99): `found_parents`, `q`, `v`. -/
structure Topo (α : Type) where
  found : Dict α Nat
  q : List α
  v : Dict α Bool

/-- digraph.py L100-103: one pass of the first loop of `topo_sort`. -/
def topoInit (g : Graph α) (s : Topo α) (u : α) : Except Err (Topo α) := do
  let d ← g.inDegree u
  let f ← dgetE s.found u
  if d = f then pure { s with q := s.q ++ [u], v := dset s.v u true } else pure s

/-- digraph.py L108-111: body of the inner loop of `topo_sort`. -/
def topoChild (g : Graph α) (s : Topo α) (c : α) : Except Err (Topo α) := do
  let f ← dgetE s.found c
  let s := { s with found := dset s.found c (f + 1) }
  let b ← dgetE s.v c
  if !b then
    let d ← g.inDegree c
    let f ← dgetE s.found c
    if d = f then pure { s with q := s.q ++ [c], v := dset s.v c true } else pure s
  else pure s

/-- digraph.py L104-111: the `while` loop of `topo_sort`. -/
def topoLoop (g : Graph α) : Nat → Topo α → List α → Except Err (List α)
  | n, s, out =>
    match s.q with
    | [] => pure out
    | u :: q =>
      match n with
      | 0 => throw .fuel
      | n + 1 => do
        let cs ← g.getChildren u
        let s ← cs.foldlM g.topoChild { s with q := q }
        topoLoop g n s (out ++ [u])

/-- digraph.py L95-113: `topo_sort`. -/
def topoSort (g : Graph α) : Except Err (List α) := do
  let s ← g.nodes.foldlM g.topoInit { found := dinit g.nodes 0, q := [], v := dinit g.nodes false }
  g.topoLoop g.nodes.length s []

/-- digraph.py L114-115: `is_acyclic`. -/
def isAcyclic (g : Graph α) : Except Err Bool := do
  let l ← g.topoSort
  pure (l.length = g.numberOfNodes)

end Graph
end Cdmir
