import Mathlib.Data.Matrix.Mul
import Mathlib.Data.Matrix.Diagonal
import Mathlib.Algebra.BigOperators.Fin
import Mathlib.Data.List.FinRange
import Mathlib.Algebra.Order.Floor.Defs
import Verif.Model.Graph

/-! Model of cdmir/datasets/simlulators.py: the simulators of independent samples, of time series and of Hawkes processes. The
numbers drawn by numpy and the point process drawn by tick are parameters, as are `sigmoid`, `exp`, `tanh`, `sin`, `cos`, the
matrix inverse and square root of numpy, and `is_directed_acyclic_graph` and `topological_sort` of networkx. Floats are elements of
a field. -/

namespace Cdmir.Sim
open BigOperators

/-- A table of `N` samples of `n` variables (`X` of shape `[n_samples, n_nodes]`). -/
abbrev Tab (N n : Nat) (K : Type) := Fin N → Fin n → K

/-- `X[:, j] = v`. -/
def setCol {K : Type} {N n : Nat} (X : Tab N n K) (j : Fin n) (v : Fin N → K) : Tab N n K :=
  fun s c => if c = j then v s else X s c

/-- `list(nx_graph.predecessors(j))` of the graph of `nx.from_numpy_array(W, create_using=nx.DiGraph)`: an edge for every entry
that is not zero. -/
def preds {K : Type} [Zero K] [DecidableEq K] {n : Nat} (W : Matrix (Fin n) (Fin n) K) (j : Fin n) : List (Fin n) :=
  (List.finRange n).filter (fun i => decide (W i j ≠ 0))

/-- What networkx answers: `is_directed_acyclic_graph` and `list(topological_sort(..))` of the graph of a matrix. -/
structure Nx (n : Nat) (K : Type) where
  isDag : Matrix (Fin n) (Fin n) K → Bool
  topo : Matrix (Fin n) (Fin n) K → List (Fin n)

/-- `noise_scale`: `None`, a scalar, or a list. -/
inductive Scale (K : Type) where
  | default
  | scalar (c : K)
  | vec (l : List K)

/-- L104-112 (and L194-202, L270-278, L349-357, L440-448, L522-530): the vector of scales. The assertion that the entries of a list
are `int` or `float` is not modelled: they are. -/
def scaleVec {K : Type} [Zero K] [One K] (n : Nat) : Scale K → Except Err (Fin n → K)
  | .default => pure (fun _ => 1)
  | .scalar c => pure (fun _ => c)
  | .vec l => if l.length = n then pure (fun i => l.getD i.val 0) else throw .value

/-- The values `noise_type` can have; `other` is any other string. -/
inductive NoiseType where
  | gauss | exp | gumbel | uniform | logistic | laplace | poisson | other
  deriving DecidableEq, Repr

/-- L48-62: `_gen_noise(size, noise_type, noise_scale)`, given the standard draws of each distribution: the draw times the scale.
`logistic` and `poisson` are unknown here. -/
def genNoise {K : Type} [Mul K] {ι : Type} (draw : NoiseType → ι → K) (t : NoiseType) (scale : ι → K) : Except Err (ι → K) :=
  match t with
  | .gauss | .exp | .gumbel | .uniform | .laplace => pure (fun i => draw t i * scale i)
  | _ => throw .value

section IID
variable {K : Type} [CommRing K] [DecidableEq K]

/-- `parents @ weights` (L73, L75, L78) for node `j`, in sample `s`. -/
def lin {N n : Nat} (W : Matrix (Fin n) (Fin n) K) (X : Tab N n K) (j : Fin n) (s : Fin N) : K :=
  ((preds W j).map (fun i => X s i * W i j)).sum

/-- What is drawn, and the external functions, in `simulate_linear_anm`: standard noise of every type, the binomial draw for a
success probability, the poisson draw for a rate. -/
structure LinDraw (N n : Nat) (K : Type) where
  noise : Fin n → NoiseType → Fin N → K
  binomial : Fin n → Fin N → K → K
  poisson : Fin n → Fin N → K → K
  sigmoid : K → K
  exp : K → K

/-- L71-79: `IIDSimulator._simulate_single_value_linear_anm` for node `j`. -/
def singleLinear {N n : Nat} (d : LinDraw N n K) (t : NoiseType) (scale : Fin n → K) (W : Matrix (Fin n) (Fin n) K) (j : Fin n)
    (X : Tab N n K) : Except Err (Fin N → K) :=
  match t with
  | .logistic => pure (fun s => d.binomial j s (d.sigmoid (lin W X j s)))
  | .poisson => pure (fun s => d.poisson j s (d.exp (lin W X j s)))
  | t => do
    let noise ← genNoise (d.noise j) t (fun _ => scale j)
    pure (fun s => lin W X j s + noise s)

/-- L127-133, L210-214, L288-298: start from zeros and fill the columns in the order given; `value j X` is the new column `j`. -/
def fillM {N n : Nat} (order : List (Fin n)) (value : Fin n → Tab N n K → Except Err (Fin N → K)) :
    Except Err (Tab N n K) :=
  order.foldlM (fun X j => do let v ← value j X; pure (setCol X j v)) (fun _ _ => 0)

/-- numpy's `linalg.inv` and `sqrt`. -/
structure Np (n : Nat) (K : Type) where
  inv : Matrix (Fin n) (Fin n) K → Matrix (Fin n) (Fin n) K
  sqrt : K → K

/-- L82-134: `IIDSimulator.simulate_linear_anm`. `nSamples = none` is the population case. The result is a table with its number of
rows. Setting the seed is not modelled. -/
def simLinear {n : Nat} (nx : Nx n K) (np : Np n K) (W : Matrix (Fin n) (Fin n) K) (nSamples : Option Nat) (t : NoiseType)
    (scale : Scale K) (d : ∀ N, LinDraw N n K) : Except Err (Σ N, Tab N n K) := do
  if t = .other then throw .assertion
  let sv ← scaleVec n scale
  if !nx.isDag W then throw .value
  match nSamples with
  | none =>
    if t = .gauss then
      pure ⟨n, (np.sqrt (n : K) • Matrix.diagonal sv) * np.inv (1 - W)⟩
    else throw .value
  | some N =>
    if (nx.topo W).length ≠ n then throw .assertion
    let X ← fillM (nx.topo W) (singleLinear (d N) t sv W)
    pure ⟨N, X⟩

/-- The values `func_type` can have in the non-linear simulators. -/
inductive FuncType where
  | mlp | mim | other
  deriving DecidableEq, Repr

/-- What is drawn, and the external functions, in `simulate_nonlinear_anm`: noise, the two layers of a perceptron with `hidden`
units, the three vectors of weights of 'mim'. -/
structure NonlinDraw (N n : Nat) (K : Type) where
  noise : Fin n → NoiseType → Fin N → K
  w1 : Fin n → Fin n → Nat → K
  w2 : Fin n → Nat → K
  m1 : Fin n → Fin n → K
  m2 : Fin n → Fin n → K
  m3 : Fin n → Fin n → K
  sigmoid : K → K
  tanh : K → K
  cos : K → K
  sin : K → K

/-- L137-166: `IIDSimulator._simulate_single_value_nonlinear_anm` for node `j` with predecessors `pa`; `hidden = none` is 100. -/
def singleNonlinear {N n : Nat} (d : NonlinDraw N n K) (t : NoiseType) (scale : Fin n → K) (func : FuncType) (hidden : Option Nat)
    (pa : List (Fin n)) (j : Fin n) (X : Tab N n K) : Except Err (Fin N → K) := do
  let noise ← genNoise (d.noise j) t (fun _ => scale j)
  if pa.length = 0 then pure noise
  else match func with
    | .mlp => pure (fun s => ((List.range (hidden.getD 100)).map (fun h =>
        d.sigmoid ((pa.map (fun i => X s i * d.w1 j i h)).sum) * d.w2 j h)).sum + noise s)
    | .mim => pure (fun s => d.tanh ((pa.map (fun i => X s i * d.m1 j i)).sum) + d.cos ((pa.map (fun i => X s i * d.m2 j i)).sum)
        + d.sin ((pa.map (fun i => X s i * d.m3 j i)).sum) + noise s)
    | .other => throw .value

/-- L168-215: `IIDSimulator.simulate_nonlinear_anm`. The call on L213 does not hand on `func_type`, so the default 'mlp' is used.
`np.zeros([np.inf, n])` raises `TypeError`. -/
def simNonlinear {n : Nat} (nx : Nx n K) (adj : Matrix (Fin n) (Fin n) K) (nSamples : Option Nat) (t : NoiseType)
    (scale : Scale K) (func : FuncType) (hidden : Option Nat) (d : ∀ N, NonlinDraw N n K) : Except Err (Σ N, Tab N n K) := do
  if t = .other ∨ t = .logistic ∨ t = .poisson then throw .assertion
  if func = .other then throw .assertion
  let A : Matrix (Fin n) (Fin n) K := fun i j => if adj i j ≠ 0 then 1 else 0
  let sv ← scaleVec n scale
  if !nx.isDag A then throw .value
  if (nx.topo A).length ≠ n then throw .assertion
  match nSamples with
  | none => throw .type
  | some N =>
    let X ← fillM (nx.topo A) (fun j => singleNonlinear (d N) t sv .mlp hidden (preds A j) j)
    pure ⟨N, X⟩

end IID

/-! ### Post-nonlinear functions -/

/-- The names of functions: those accepted by `simulate_pnl` (L265), 'sin' which `_pnl_func` knows, and any other string. -/
inductive Fn where
  | tanh | leakyRelu | cos | linear | sin | other
  deriving DecidableEq, Repr

/-- A function of `_pnl_func`: applied to each number, or a product with a matrix of the given shape. -/
inductive Layer (K : Type) where
  | elem (f : K → K)
  | mat (din dout : Nat) (W : Nat → Nat → K)

/-- The functions numpy applies to each number. -/
structure Elem (K : Type) where
  tanh : K → K
  leaky : K → K
  sin : K → K

/-- L19-29: `_pnl_func(func_type, d_inputs, d_outputs, neg_slope)` with the weights drawn. -/
def pnlFunc {K : Type} (e : Elem K) (W : Nat → Nat → K) (t : Fn) (din dout : Nat) : Layer K :=
  match t with
  | .tanh => .elem e.tanh
  | .leakyRelu => .elem e.leaky
  | .sin => .elem e.sin
  | _ => .mat din dout W

/-- L32-45: `_pnl_func_sequential` for a list, as the list of its layers; `W k` are the weights drawn when `k` functions are left. -/
def pnlSeq {K : Type} (e : Elem K) (W : Nat → Nat → Nat → K) : List Fn → Nat → Nat → Nat → List (Layer K)
  | [], _, _, _ => []
  | t :: ts, din, dout, hidden =>
    let lastLinear := decide (t = .linear) && !ts.contains .linear
    let hidden' := if ts.contains .linear then hidden else dout
    let out := if lastLinear then dout else hidden'
    pnlFunc e (W ts.length) t din out :: pnlSeq e W ts out dout hidden'

/-- A row through one layer; `x @ W1` raises `ValueError` when the row does not fit. -/
def runLayer {K : Type} [CommRing K] : Layer K → List K → Except Err (List K)
  | .elem f, x => pure (x.map f)
  | .mat din dout W, x =>
    if x.length = din then pure ((List.range dout).map (fun c => (x.zipIdx.map (fun (v, i) => v * W i c)).sum)) else throw .value

/-- A row through the composed function. -/
def runLayers {K : Type} [CommRing K] (ls : List (Layer K)) (x : List K) : Except Err (List K) :=
  ls.foldlM (fun x l => runLayer l x) x

/-- `func_type`: one name or a list of names. -/
inductive FnSpec where
  | one (t : Fn)
  | seq (ts : List Fn)
  deriving DecidableEq, Repr

/-- `'linear' in func_type` (for one name a test on substrings, true only for 'linear' itself). -/
def FnSpec.hasLinear : FnSpec → Bool
  | .one t => t = .linear
  | .seq ts => ts.contains .linear

/-- L266-270: only the four names are accepted. -/
def FnSpec.accepted : FnSpec → Bool
  | .one t => [Fn.tanh, .leakyRelu, .cos, .linear].contains t
  | .seq ts => ts.all (fun t => [Fn.tanh, .leakyRelu, .cos, .linear].contains t)

/-- L32-45: `_pnl_func_sequential` for a name or a list. -/
def pnlLayers {K : Type} (e : Elem K) (W : Nat → Nat → Nat → K) (f : FnSpec) (din dout hidden : Nat) : List (Layer K) :=
  match f with
  | .one t => [pnlFunc e (W 0) t din dout]
  | .seq ts => pnlSeq e W ts din dout hidden

section PNL
variable {K : Type} [CommRing K] [DecidableEq K]

/-- What is drawn in `simulate_pnl`. -/
structure PnlDraw (N n : Nat) (K : Type) where
  noise1 : Fin n → NoiseType → Fin N → K
  noise2 : Fin n → NoiseType → Fin N × Nat → K
  w1 : Fin n → Nat → Nat → Nat → K
  w2 : Fin n → Nat → Nat → Nat → K
  elem : Elem K

/-- `(func1 == 'linear' ...)` of L224-226: whether a hidden size other than the number of parents is refused. -/
def hiddenRefused (f1 f2 : FnSpec) : Bool :=
  (!f1.hasLinear || !f2.hasLinear) && (decide (f1 ≠ .one .linear) || decide (f2 ≠ .one .linear))

/-- The sum of two rows of numbers, numpy's broadcasting of rows of length one left out: other lengths raise `ValueError`. -/
def addRow (x y : List K) : Except Err (List K) :=
  if x.length = y.length then pure (List.zipWith (· + ·) x y) else throw .value

/-- L217-236: `IIDSimulator._simulate_single_value_pnl` for node `j`. `np.sum` without an axis adds up all samples and columns: one
number, which L290 writes to the whole column. -/
def singlePnl {N n : Nat} (d : PnlDraw N n K) (t : NoiseType) (scale : Fin n → K) (f1 f2 : FnSpec) (hidden : Option Nat)
    (pa : List (Fin n)) (j : Fin n) (X : Tab N n K) : Except Err (Fin N → K) := do
  let p := pa.length
  let h := hidden.getD p
  if h ≠ p ∧ hiddenRefused f1 f2 then throw .value
  if p = 0 then genNoise (d.noise1 j) t (fun _ => scale j)
  else do
    let noise ← genNoise (d.noise2 j) t (fun _ => scale j)
    let rows ← (List.finRange N).mapM (fun s => do
      let u ← runLayers (pnlLayers d.elem (d.w1 j) f1 p h h) (pa.map (X s))
      let v ← addRow u ((List.range h).map (fun c => noise (s, c)))
      runLayers (pnlLayers d.elem (d.w2 j) f2 h p h) v)
    pure (fun _ => (rows.map List.sum).sum)

/-- L238-299: `IIDSimulator.simulate_pnl`. -/
def simPnl {N n : Nat} (nx : Nx n K) (adj : Matrix (Fin n) (Fin n) K) (t : NoiseType) (scale : Scale K) (f1 f2 : FnSpec)
    (hidden : Option Nat) (d : PnlDraw N n K) : Except Err (Tab N n K) := do
  if t = .other ∨ t = .logistic ∨ t = .poisson then throw .assertion
  if !f1.accepted || !f2.accepted then throw .assertion
  let sv ← scaleVec n scale
  if !nx.isDag adj then throw .value
  if (nx.topo adj).length ≠ n then throw .assertion
  fillM (nx.topo adj) (fun j => singlePnl d t sv f1 f2 hidden (preds adj j) j)

end PNL
end Cdmir.Sim
