import Mathlib.Data.Matrix.Mul
import Mathlib.Data.Fintype.Perm
import Mathlib.Algebra.Field.Rat
import Mathlib.Algebra.Order.Field.Rat

/-! Model of the random graph generators of cdmir/datasets/utils.py. The values drawn (permutations of the rows, the graph
drawn by networkx, the uniform numbers) are parameters; floats are exact rationals. -/

namespace Cdmir
open BigOperators

/-- datasets/utils.py L39: `np.random.permutation(np.eye(n))`, the rows of the identity in the drawn order `σ`: row `i` is row
`σ i` of the identity. -/
def permMat {n : Nat} (σ : Equiv.Perm (Fin n)) : Matrix (Fin n) (Fin n) ℚ := fun i j => if σ i = j then 1 else 0

/-- datasets/utils.py L37-40: `_random_permutation(mat)` with the drawn order `σ`. -/
def randomPermutation {n : Nat} (σ : Equiv.Perm (Fin n)) (mat : Matrix (Fin n) (Fin n) ℚ) : Matrix (Fin n) (Fin n) ℚ :=
  (permMat σ).transpose * mat * permMat σ

/-- `np.tril(m, k=-1)`: entries with column < row are kept, the others are 0. -/
def trilBelow {n : Nat} (m : Matrix (Fin n) (Fin n) ℚ) : Matrix (Fin n) (Fin n) ℚ := fun i j => if j < i then m i j else 0

/-- datasets/utils.py L43-46: `_random_acyclic_orientation(graph)` with the two drawn orders. -/
def randomAcyclicOrientation {n : Nat} (σ τ : Equiv.Perm (Fin n)) (graph : Matrix (Fin n) (Fin n) ℚ) :
    Matrix (Fin n) (Fin n) ℚ :=
  randomPermutation τ (trilBelow (randomPermutation σ graph))

/-- datasets/utils.py L49-53: `_adj2weights(adj_mat, mat_dim, w_range)`; `uni` are the uniform numbers drawn from the range,
`coin` the numbers of `np.random.rand`. -/
def adj2weights {n : Nat} (uni coin : Matrix (Fin n) (Fin n) ℚ) (adj : Matrix (Fin n) (Fin n) ℚ) :
    Matrix (Fin n) (Fin n) ℚ :=
  let uniMat : Matrix (Fin n) (Fin n) ℚ := fun i j => if coin i j < 1 / 2 then uni i j * (-1) else uni i j
  fun i j => (if adj i j ≠ 0 then 1 else 0) * uniMat i j

/-- The adjacency matrix (`nx.to_numpy_array`) of an undirected networkx graph on `0..n-1` given by its edge test. -/
def nxAdj {n : Nat} (e : Fin n → Fin n → Bool) : Matrix (Fin n) (Fin n) ℚ := fun i j => if e i j then 1 else 0

/-- datasets/utils.py L64-77: `erdos_renyi(n_nodes, n_edges, weight_range, seed)` with the drawn networkx graph `e`; `none` is
the failing assertion. `weights = none` is `weight_range is None`, otherwise the drawn numbers. `n_edges` and `seed` act only
through the draws. -/
def erdosRenyi {n : Nat} (e : Fin n → Fin n → Bool) (σ τ : Equiv.Perm (Fin n))
    (weights : Option (Matrix (Fin n) (Fin n) ℚ × Matrix (Fin n) (Fin n) ℚ)) : Option (Matrix (Fin n) (Fin n) ℚ) :=
  if n > 0 then
    let dag := randomAcyclicOrientation σ τ (nxAdj e)
    match weights with
    | none => some dag
    | some (uni, coin) => some (adj2weights uni coin dag)
  else none

end Cdmir
