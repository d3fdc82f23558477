import Verif.Model.Simulate
import Verif.Model.RandomDag
import Mathlib.Analysis.Real.Sqrt
import Mathlib.Analysis.SpecialFunctions.Trigonometric.Basic
import Mathlib.Analysis.SpecialFunctions.Exp

/-! Model of the generators of graphs, weights and non-linear data of
cdmir/discovery/score_based/entropy_based/entropy_based_discovery/utils.py. What igraph and numpy draw is a parameter.
The parts shared with cdmir/datasets/simlulators.py are those of Model/Simulate.lean. -/

namespace Cdmir.Sim
open BigOperators

/-- `graph_type` of `simulate_dag`; `other` is any other string. -/
inductive GraphType where
  | ER | SF | BP | other
  deriving DecidableEq, Repr

/-- What igraph draws, as matrices of zeros and ones: an undirected graph, a graph grown by attachment, a bipartite graph. -/
structure IgDraw (d : Nat) where
  er : Matrix (Fin d) (Fin d) ℚ
  sf : Matrix (Fin d) (Fin d) ℚ
  bp : Matrix (Fin d) (Fin d) ℚ

/-- utils.py L24-65: `simulate_dag`, with the two drawn orders `σ` and `τ`. -/
def simulateDag {d : Nat} (isDag : Matrix (Fin d) (Fin d) ℚ → Bool) (t : GraphType) (g : IgDraw d) (σ τ : Equiv.Perm (Fin d)) :
    Except Err (Matrix (Fin d) (Fin d) ℚ) := do
  let B ← match t with
    | .ER => pure (trilBelow (randomPermutation σ g.er))
    | .SF => pure g.sf
    | .BP => pure g.bp
    | .other => throw .value
  let Bp := randomPermutation τ B
  if isDag Bp then pure Bp else throw .assertion

/-- utils.py L68-83: `simulate_parameter` with `k` ranges; `S` are the ranges drawn for each entry, `U i` the numbers drawn from
range `i`. -/
def simulateParameter {d : Nat} (B : Matrix (Fin d) (Fin d) ℚ) (k : Nat) (S : Fin d → Fin d → Nat) (U : Nat → Matrix (Fin d) (Fin d) ℚ) :
    Matrix (Fin d) (Fin d) ℚ :=
  Matrix.of fun a b => (List.range k).foldl (fun w i => w + B a b * (if S a b = i then 1 else 0) * U i a b) 0

/-- `sem_type` of `simulate_nonlinear_sem`; `other` is any other string. -/
inductive SemType where
  | mlp | mim | gp | gpAdd | pow2 | pow3 | other
  deriving DecidableEq, Repr

/-- `noise_dist` of `simulate_nonlinear_sem`. -/
inductive NoiseDist where
  | gauss | exp | gumbel | uniform | other
  deriving DecidableEq, Repr

/-- What is drawn in `simulate_nonlinear_sem`: the noise of each node, and for each node and kind the function of the columns of the
parents. -/
structure SemDraw (N n : Nat) (K : Type) where
  noise : Fin n → NoiseDist → Fin N → K
  func : SemType → Fin n → List (Fin N → K) → Fin N → K

variable {K : Type} [CommRing K] [DecidableEq K]

/-- `scale_vec[j]` (utils.py L305, L312): a Python number has no entries. -/
def scaleAt (scale : Scale K) (j : Nat) : Except Err K :=
  match scale with
  | .default => pure 1
  | .scalar _ => throw .type
  | .vec l => match l[j]? with
    | some c => pure c
    | none => throw .index

/-- utils.py L239-300: `_simulate_single_equation` for node `j` with parents `pa`. -/
def singleSem {N n : Nat} (d : SemDraw N n K) (t : SemType) (nd : NoiseDist) (pa : List (Fin n)) (j : Fin n) (scale : K) (X : Tab N n K) :
    Except Err (Fin N → K) :=
  if nd = .other then throw .value
  else
    if pa.length = 0 then pure fun s => d.noise j nd s * scale
    else if t = .other then throw .value
    else pure fun s => d.func t j (pa.map fun i s => X s i) s + d.noise j nd s * scale

/-- utils.py L225-313: `simulate_nonlinear_sem`; `topo` is igraph's order. -/
def simNonlinearSem {n : Nat} (topo : Matrix (Fin n) (Fin n) K → List (Fin n)) (B : Matrix (Fin n) (Fin n) K) (N : Nat) (t : SemType)
    (nd : NoiseDist) (scale : Scale K) (d : SemDraw N n K) : Except Err (Tab N n K) :=
  if (topo B).length ≠ n then throw .assertion
  else fillM (topo B) fun j X => do
    let c ← scaleAt scale j
    singleSem d t nd (preds B j) j c X

/-- utils.py L101-124: `_simulate_single_equation` of `simulate_linear_sem`: as in simlulators.py, but 'laplace' is not known. -/
def singleLinSem {N n : Nat} (d : LinDraw N n K) (t : NoiseType) (scale : Fin n → K) (W : Matrix (Fin n) (Fin n) K) (j : Fin n)
    (X : Tab N n K) : Except Err (Fin N → K) :=
  if t = .laplace then throw .value else singleLinear d t scale W j X

/-- utils.py L86-152: `simulate_linear_sem`. Unlike `simulate_linear_anm` it does not look at the name of the noise before the first
node. -/
def simLinearSem {n : Nat} (nx : Nx n K) (np : Np n K) (W : Matrix (Fin n) (Fin n) K) (nSamples : Option Nat) (t : NoiseType)
    (scale : Scale K) (d : ∀ N, LinDraw N n K) : Except Err (Σ N, Tab N n K) := do
  let sv ← scaleVec n scale
  if !nx.isDag W then throw .value
  match nSamples with
  | none =>
    if t = .gauss then
      pure ⟨n, (np.sqrt (n : K) • Matrix.diagonal sv) * np.inv (1 - W)⟩
    else throw .value
  | some N =>
    if (nx.topo W).length ≠ n then throw .assertion
    let X ← fillM (nx.topo W) (singleLinSem (d N) t sv W)
    pure ⟨N, X⟩

/-- utils.py L155-222: `simulate_linear_sem_variable_scale`; `u` are the `d` scales drawn (L195). -/
def simLinearSemVar {n : Nat} (nx : Nx n K) (np : Np n K) (W : Matrix (Fin n) (Fin n) K) (nSamples : Option Nat) (t : NoiseType)
    (u : Fin n → K) (d : ∀ N, LinDraw N n K) : Except Err (Σ N, Tab N n K) :=
  simLinearSem nx np W nSamples t (.vec (List.ofFn u)) d

/-- utils.py L260-266: the function of 'mlp'; `w1`, `w2` are the weights after the drawn signs. -/
noncomputable def mlpFun {m : Nat} (hidden : Nat) (w1 : Fin m → Fin hidden → ℝ) (w2 : Fin hidden → ℝ) (x : Fin m → ℝ) : ℝ :=
  ∑ h, (1 / (1 + Real.exp (-∑ i, x i * w1 i h))) * w2 h

/-- utils.py L267-274: the function of 'mim'. -/
noncomputable def mimFun {m : Nat} (w1 w2 w3 : Fin m → ℝ) (x : Fin m → ℝ) : ℝ :=
  Real.tanh (∑ i, x i * w1 i) + Real.cos (∑ i, x i * w2 i) + Real.sin (∑ i, x i * w3 i)

/-- utils.py L284-297: the functions of 'pow2' (`e = 2`) and 'pow3' (`e = 3`). -/
def powFun {m : Nat} (e hidden : Nat) (w1 : Fin m → Fin hidden → K) (w2 : Fin hidden → K) (x : Fin m → K) : K :=
  ∑ h, (∑ i, x i * w1 i h) ^ e * w2 h

/-- utils.py L394-441: `simulate_pariwise` once the two columns `c`, `e` are drawn; `f` is tanh + cos + sin. -/
def simPair {N : Nat} (weight : K) (linear : Bool) (direct : Int) (f : K → K) (c e : Fin N → K) : Tab N 2 K :=
  let X : Tab N 2 K := fun s k => if k = 0 then c s else if linear then e s + weight * c s else e s + f (c s)
  if direct = 1 then fun s k => X s (if k = 0 then 1 else 0) else X

/-- The values of `distribution` in `simulate_pariwise`. -/
inductive PairDist where
  | gauss | uniform | gumbel | exp | logistic | poisson
  deriving DecidableEq, Repr

/-- utils.py L404-428: what a standard draw is multiplied by; 'logistic' and 'poisson' do not look at the variance asked for. -/
noncomputable def pairScale (var : ℝ) : PairDist → ℝ
  | .gauss | .gumbel | .exp => Real.sqrt var
  | .uniform => Real.sqrt (3 * var)
  | .logistic | .poisson => 1

/-- The variances of the standard draws of numpy: normal, uniform on [-1, 1), Gumbel, exponential, binomial with p = 0.6, Poisson
with rate one. -/
noncomputable def stdVar : PairDist → ℝ
  | .gauss => 1
  | .uniform => 1 / 3
  | .gumbel => Real.pi ^ 2 / 6
  | .exp => 1
  | .logistic => 0.6 * 0.4
  | .poisson => 1

/-- utils.py L536-545: `simulate_Test` from the three columns drawn. -/
def simTest {N : Nat} {K : Type} [Field K] (z : Tab N 3 K) : Tab N 3 K := fun s k =>
  if k = 0 then z s 0
  else if k = 1 then z s 1 + 3 * z s 0
  else z s 2 + (6 / 10 * (z s 1 + 3 * z s 0) + 1 * z s 0)

/-- utils.py L114-116 and L251-255: the noise of 'uniform', from a number `u` drawn uniformly from [0, 1). -/
noncomputable def uniformNoise {K : Type} [Field K] (sqrt : K → K) (scale u : K) : K :=
  scale * (-(sqrt 12) / 2 + (sqrt 12 / 2 - -(sqrt 12) / 2) * u)

end Cdmir.Sim
