import Verif.Model.Hier

/-! Model of MakeGraph.py, Infer_Causal_Order.py and GIN2.py in cdmir/discovery/funtional_based/LearningHierarchicalStructure.

Left out: the drawing and the printed output, `GIN` (the test with HSIC) and the estimate of mutual information, which is a parameter. -/

namespace Cdmir.Hier

section graph
variable {V : Type} [DecidableEq V]

/-- The graph of networkx that `Make_graph` draws. -/
structure Drawn (V : Type) where
  nodes : List V := []
  edges : List (V × V) := []
  deriving DecidableEq

/-- `g.add_node`. -/
def Drawn.addNode (g : Drawn V) (v : V) : Drawn V := if v ∈ g.nodes then g else { g with nodes := g.nodes ++ [v] }

/-- `g.add_edge`; the nodes are added if they are missing. -/
def Drawn.addEdge (g : Drawn V) (u v : V) : Drawn V :=
  let g := (g.addNode u).addNode v
  if (u, v) ∈ g.edges then g else { g with edges := g.edges ++ [(u, v)] }

/-- MakeGraph.py L39-45: `RmoveEdgeBetweenN_factor`. -/
def oneFactor (share : List (List V)) (x y : V) : Bool := share.any fun p => decide (x ∈ p) && decide (y ∈ p)

/-- MakeGraph.py L14-22: a latent variable with its children. -/
def drawLatent (g : Drawn V) (e : V × List V) : Drawn V := e.2.foldl (fun g w => g.addEdge e.1 w) (g.addNode e.1)

/-- MakeGraph.py L5-27: the graph that `Make_graph` draws. -/
def makeGraph (latent : Dict V (List V)) (order : List V) (share : List (List V)) : Drawn V :=
  (pairs order).foldl (fun g e => if oneFactor share e.1 e.2 then g else g.addEdge e.1 e.2) (latent.foldl drawLatent {})

/-- MakeGraph.py L92-96: `w` becomes a child of `L`. `order` is the order in which a set of names is read. -/
def addChild (order : List V → List V) (L : V) (d : Dict V (List V)) (w : V) : Dict V (List V) :=
  match dget d L with
  | none => d
  | some clu => if w ∈ clu then d else dset d L (order (pyUnion (pySet clu) [w]))

/-- MakeGraph.py L86-96: one impure cluster. -/
def tranCluster (order : List V → List V) : List V → Dict V (List V) → Dict V (List V)
  | [], d => d
  | L :: rest, d => tranCluster order rest (if L ∈ dkeys d then rest.foldl (addChild order L) d else d)

/-- MakeGraph.py L84-99: `tranImpureToLatentIndex`. -/
def tranImpure (order : List V → List V) (latent : Dict V (List V)) (impures : List (List V)) : Dict V (List V) :=
  impures.foldl (fun d C => tranCluster order C d) latent

/-- MakeGraph.py L102-104: `Make_graph_Impure`. -/
def makeGraphImpure (order : List V → List V) (latent : Dict V (List V)) (impures : List (List V)) : Drawn V :=
  makeGraph (tranImpure order latent impures) [] []

/-- MakeGraph.py L61-67: `n` latent variables for one cluster, from the number `i` on: the new number, `LatentIndex` and `ts`. -/
def factor (lname : Nat → V) (clu : List V) : Nat → Nat → Dict V (List V) → Nat × Dict V (List V) × List V
  | 0, i, d => (i, d, [])
  | n + 1, i, d =>
    let r := factor lname clu n (i + 1) (dset d (lname i) clu)
    (r.1, r.2.1, lname i :: r.2.2)

/-- MakeGraph.py L52-68: the clusters, each with the number of its latent variables. -/
def factors (lname : Nat → V) : List (Nat × List V) → Nat → Dict V (List V) → List (List V) → Dict V (List V) × List (List V)
  | [], _, d, share => (d, share)
  | (n, clu) :: l, i, d, share =>
    let r := factor lname clu n i d
    factors lname l r.1 r.2.1 (share ++ [r.2.2])

/-- `set(S) == set(T)`. -/
def sameSet (S T : List V) : Bool := S.all (fun x => x ∈ T) && T.all (fun x => x ∈ S)

/-- MakeGraph.py L50-83: `Transfer2Index`. The keys of `Cluster` are numerals (`int(LatentNum)`), here numbers. -/
def transfer (lname : Nat → V) (cluster : List (Nat × List (List V))) (ord : List (List V)) : Dict V (List V) × List V × List (List V) :=
  let r := factors lname (cluster.flatMap fun e => e.2.map fun c => (e.1, c)) 1 [] []
  (r.1, ord.flatMap fun root => (dkeys r.1).filter fun k => sameSet ((dget r.1 k).getD []) root, r.2)

end graph

section order
variable {V : Type} [DecidableEq V]

/-- Infer_Causal_Order.py L66-73: `GetCluster`. -/
def getCluster (cluster : List (Nat × List (List V))) : List (List V) := cluster.flatMap Prod.snd

/-- The elements of a list at the places that satisfy a condition. -/
def places (p : Nat → Bool) (l : List V) : List V := (l.zipIdx.filter fun e => p e.2).map Prod.fst

/-- Infer_Causal_Order.py L36-53: the set `X` for the cluster `clu`, another cluster `o` and the roots found before. -/
def setX (clu o : List V) (K : List (List V)) : List V :=
  places (fun i => decide (2 * i < clu.length)) clu ++ places (fun i => decide (2 * i < o.length)) o ++
    K.flatMap fun k => places (fun j => decide (j < k.length / 2)) k

/-- Infer_Causal_Order.py L36-53: the set `Z`. -/
def setZ (clu : List V) (K : List (List V)) : List V :=
  places (fun i => !decide (2 * i < clu.length)) clu ++ K.flatMap fun k => places (fun j => !decide (j < k.length / 2)) k

variable {R : Type} [Field R] [LinearOrder R]

/-- GIN2.py L34-49: `GIN_MI`: the mean of the mutual information of the surrogate with each variable of `Z`; `ZeroDivisionError` without any.
`mi X Z z` is the mutual information of the surrogate of `X` and `Z` with `z`. -/
def ginMI (mi : List V → List V → V → R) (X Z : List V) : Except Err R :=
  if Z.isEmpty then throw .exception else pure ((Z.map (mi X Z)).sum / Z.length)

/-- Infer_Causal_Order.py L30-58: the sum over the other clusters. -/
def score (gin : List V → List V → Except Err R) (K : List (List V)) (clu : List V) : List (List V) → Except Err R
  | [] => pure 0
  | o :: l => do
    let m ← gin (setX clu o K) (setZ clu K)
    pure (m + (← score gin K clu l))

/-- `cluster[MIS.index(min(MIS))]`: the first of the clusters with the least value. -/
def firstMin : List (R × List V) → Option (R × List V)
  | [] => none
  | e :: l =>
    match firstMin l with
    | none => some e
    | some f => if f.1 < e.1 then some f else some e

/-- Infer_Causal_Order.py L23-63: `FindRoot`. -/
def findRoot (gin : List V → List V → Except Err R) (cluster K : List (List V)) : Except Err (List V) := do
  match cluster with
  | [c] => pure c
  | _ =>
    let ms ← cluster.mapM fun c => do pure ((← score gin K c (cluster.erase c)), c)
    match firstMin ms with
    | none => throw .value
    | some e => pure e.2

/-- Infer_Causal_Order.py L13-20: the `while` loop; the first argument bounds the number of passes. -/
def orderLoop (gin : List V → List V → Except Err R) : Nat → List (List V) → List (List V) → Except Err (List (List V))
  | _, [], K => pure K
  | 0, _ :: _, _ => throw .fuel
  | fuel + 1, c :: cs, K => do
    let root ← findRoot gin (c :: cs) K
    orderLoop gin fuel ((c :: cs).erase root) (K ++ [root])

/-- Infer_Causal_Order.py L9-20: `LearnCausalOrder`. -/
def learnOrder (gin : List V → List V → Except Err R) (cluster : List (Nat × List (List V))) : Except Err (List (List V)) :=
  orderLoop gin (getCluster cluster).length (getCluster cluster) []

end order

noncomputable section omega
open BigOperators

variable {n p : Nat}

/-- GIN2.py L52-64: the matrix `A` that `getomega` decomposes. The names are column numbers here. -/
def crossCov (data : Fin p → Fin n → ℝ) (X Z : List (Fin p)) : Matrix (Fin Z.length) (Fin X.length) ℝ :=
  Matrix.of fun i j => Tetrad.cov (data (X.get j)) (data (Z.get i))

/-- GIN2.py L65-70: `omega`, the last row of the third factor `v` of the singular value decomposition; `IndexError` if `X` is empty. -/
def getomega (svd : {a b : Nat} → Matrix (Fin b) (Fin a) ℝ → Matrix (Fin a) (Fin a) ℝ) (data : Fin p → Fin n → ℝ) (X Z : List (Fin p)) :
    Except Err (Fin X.length → ℝ) :=
  if h : 0 < X.length then pure (fun j => svd (crossCov data X Z) ⟨X.length - 1, by omega⟩ j) else throw .index

/-- GIN2.py L35-37: the surrogate variable, `np.dot(omega, tdata.T)`. -/
def surrogate (data : Fin p → Fin n → ℝ) (X : List (Fin p)) (ω : Fin X.length → ℝ) : Fin n → ℝ := fun r => ∑ j, ω j * data (X.get j) r

/-- GIN2.py L34-49: `GIN_MI` with the surrogate that it forms; `I` is the estimate of mutual information of two columns. -/
def ginData (svd : {a b : Nat} → Matrix (Fin b) (Fin a) ℝ → Matrix (Fin a) (Fin a) ℝ) (I : (Fin n → ℝ) → (Fin n → ℝ) → ℝ) (data : Fin p → Fin n → ℝ)
    (X Z : List (Fin p)) : Except Err ℝ := do
  let ω ← getomega svd data X Z
  ginMI (fun _ _ z => I (surrogate data X ω) (data z)) X Z

end omega

end Cdmir.Hier
