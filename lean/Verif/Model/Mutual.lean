import Verif.Model.Py
import Mathlib.Data.List.Sort
import Mathlib.Analysis.SpecialFunctions.Gamma.Deriv
import Mathlib.Analysis.SpecialFunctions.Trigonometric.DerivHyp
import Mathlib.Analysis.SpecialFunctions.Pow.Real
import Mathlib.Analysis.SpecialFunctions.Log.Basic
import Mathlib.Analysis.Real.Sqrt
import Mathlib.LinearAlgebra.Matrix.Determinant.Basic

/-! Model of cdmir/discovery/funtional_based/LearningHierarchicalStructure/mutual.py and independence.py (the same code is in
indTest/independence.py). Real numbers; `EPS` is the machine epsilon that the code adds. -/

namespace Cdmir.Mutual
open BigOperators

/-- mutual.py L18, L82: `np.finfo(float).eps`. -/
noncomputable def EPS : ℝ := 1 / 2 ^ 52

/-- An array of shape `(n, d)`. -/
structure Var (n : Nat) where
  d : Nat
  x : Fin n → Fin d → ℝ

variable {n : Nat}

/-- The squared Euclidean distance of two rows. -/
def sqDist (X : Var n) (i j : Fin n) : ℝ := ∑ l, (X.x i l - X.x j l) ^ 2

/-- The Euclidean distance of two rows, sklearn's default metric. -/
noncomputable def dist (X : Var n) (i j : Fin n) : ℝ := Real.sqrt (sqDist X i j)

/-- The entry with index `k` of the sorted list. -/
noncomputable def kth (l : List ℝ) (k : Nat) : ℝ := (l.insertionSort (· ≤ ·)).getD k 0

/-- mutual.py L21-31: `nearest_distances`. `kneighbors` sorts the distances of a row to all rows, itself included; sklearn raises for
`k + 1 > n` and for arrays without columns. -/
noncomputable def nearestDistances (X : Var n) (k : Nat) : Except Err (Fin n → ℝ) :=
  if X.d = 0 ∨ n < k + 1 then .error .value
  else .ok fun i => kth ((List.finRange n).map fun j => dist X i j) k

/-- scipy's `psi`: the logarithmic derivative of the Gamma function (at positive integers; `psi(0)` is not used by the theorems). -/
noncomputable def psi (m : Nat) : ℝ := deriv Real.Gamma m / Real.Gamma m

/-- mutual.py L75. -/
noncomputable def volumeUnitBall (d : Nat) : ℝ := Real.pi ^ ((1 / 2 : ℝ) * d) / Real.Gamma ((1 / 2 : ℝ) * d + 1)

/-- mutual.py L53-83: `entropy`. -/
noncomputable def entropy (X : Var n) (k : Nat) : Except Err ℝ := do
  let r ← nearestDistances X k
  pure ((X.d : ℝ) * ((∑ i, Real.log (r i + EPS)) / n) + Real.log (volumeUnitBall X.d) + psi n - psi k)

/-- `np.hstack` of two arrays with the same number of rows. -/
def Var.append (X Y : Var n) : Var n := ⟨X.d + Y.d, fun i => Fin.append (X.x i) (Y.x i)⟩

/-- mutual.py L100: `np.hstack(variables)`. -/
def hstack : List (Var n) → Var n
  | [] => ⟨0, fun _ => Fin.elim0⟩
  | X :: l => X.append (hstack l)

/-- The list of mutual.py L101, evaluated from the left. -/
noncomputable def entropies (vs : List (Var n)) (k : Nat) : Except Err (List ℝ) := vs.mapM fun X => entropy X k

/-- mutual.py L86-102: `mutual_information`. -/
noncomputable def mutualInformation (vs : List (Var n)) (k : Nat) : Except Err ℝ :=
  if vs.length < 2 then .error .exception
  else do
    let all := hstack vs
    let hs ← entropies vs k
    let h ← entropy all k
    pure (hs.sum - h)

/-- `x.reshape(length, 1)`. -/
def column (x : Fin n → ℝ) : Var n := ⟨1, fun i _ => x i⟩

/-- independence.py L21-34: `independent`, for two arrays of the same length. -/
noncomputable def independent (x y : Fin n → ℝ) : Except Err ℝ := do
  let mi ← mutualInformation [column x, column y] (if n > 3000 then 15 else 10)
  pure |mi|

/-- mutual.py L38-39: `entropy_gaussian` of a number (positive: a variance). -/
noncomputable def entropyGaussian1 (C : ℝ) : ℝ := 1 / 2 * (1 + Real.log (2 * Real.pi)) + 1 / 2 * Real.log C

/-- mutual.py L40-42: `entropy_gaussian` of a matrix; the rows can have any names. -/
noncomputable def entropyGaussian {ι : Type} [Fintype ι] [DecidableEq ι] (C : Matrix ι ι ℝ) : ℝ :=
  1 / 2 * Fintype.card ι * (1 + Real.log (2 * Real.pi)) + 1 / 2 * Real.log |C.det|

/-- mutual.py L45-50, L212-218: `entropy2`, `_entropy`. -/
noncomputable def entropy2 (u : Fin n → ℝ) : ℝ :=
  (1 + Real.log (2 * Real.pi)) / 2 - 79.047 * ((∑ i, Real.log (Real.cosh (u i))) / n - 0.37457) ^ 2 -
    7.4129 * ((∑ i, u i * Real.exp (-u i ^ 2 / 2)) / n) ^ 2

/-- The ends of the range of `np.histogram2d`: smallest and greatest value, `(0, 1)` without data, half a unit around a single value. -/
noncomputable def ends : List ℝ → ℝ × ℝ
  | [] => (0, 1)
  | a :: l =>
    let lo := l.foldl min a
    let hi := l.foldl max a
    if lo = hi then (lo - 1 / 2, hi + 1 / 2) else (lo, hi)

/-- The edge with index `t` of `b` bins. -/
noncomputable def edge (b : Nat) (e : ℝ × ℝ) (t : Nat) : ℝ := e.1 + (e.2 - e.1) * t / b

/-- `searchsorted(edges, x, 'right')`, less one if `x` is the last edge; the bins are counted from one. -/
noncomputable def binOf (b : Nat) (e : ℝ × ℝ) (x : ℝ) : Nat :=
  ((List.range (b + 1)).countP fun t => edge b e t ≤ x) - if x = e.2 then 1 else 0

/-- mutual.py L124: `np.histogram2d(x, y, bins=(b, b))[0]`, for `x` and `y` of the same length. -/
noncomputable def hist2d (b : Nat) (p : List (ℝ × ℝ)) : Matrix (Fin b) (Fin b) ℝ := fun i j =>
  (p.countP fun q => binOf b (ends (p.map Prod.fst)) q.1 = i + 1 ∧ binOf b (ends (p.map Prod.snd)) q.2 = j + 1 : ℕ)

/-- scipy's Gaussian kernel with `radius = int(4 sigma + 0.5)`, normalised; zero beyond the radius. -/
noncomputable def gaussWeight (sigma : ℝ) (t : ℤ) : ℝ :=
  let r := ⌊4 * sigma + 1 / 2⌋
  if |t| ≤ r then Real.exp (-(1 / 2) * (t : ℝ) ^ 2 / sigma ^ 2) / ∑ s ∈ Finset.Icc (-r) r, Real.exp (-(1 / 2) * (s : ℝ) ^ 2 / sigma ^ 2) else 0

/-- `gaussian_filter1d` with `mode='constant'`: zero outside the array. -/
noncomputable def smooth1 {b : Nat} (sigma : ℝ) (a : Fin b → ℝ) : Fin b → ℝ := fun i => ∑ j : Fin b, gaussWeight sigma (((j : Nat) : ℤ) - ((i : Nat) : ℤ)) * a j

/-- mutual.py L127-128: `ndimage.gaussian_filter`: first along axis 0, then along axis 1; nothing for a tiny `sigma`. -/
noncomputable def smooth {b : Nat} (sigma : ℝ) (a : Matrix (Fin b) (Fin b) ℝ) : Matrix (Fin b) (Fin b) ℝ :=
  if sigma > 1 / 10 ^ 15 then
    Matrix.of fun i j => smooth1 sigma (fun j' => smooth1 sigma (fun i' => a i' j') i) j
  else a

/-- mutual.py L131-133. -/
noncomputable def joint {b : Nat} (sigma : ℝ) (p : List (ℝ × ℝ)) : Matrix (Fin b) (Fin b) ℝ :=
  let jh : Fin b → Fin b → ℝ := fun i j => smooth sigma (hist2d b p) i j + EPS
  Matrix.of fun i j => jh i j / ∑ i', ∑ j', jh i' j'

/-- mutual.py L134-148. -/
noncomputable def mi2d {b : Nat} (jh : Matrix (Fin b) (Fin b) ℝ) (normalized : Bool) : ℝ :=
  let s1 : Fin b → ℝ := fun j => ∑ i, jh i j
  let s2 : Fin b → ℝ := fun i => ∑ j, jh i j
  if normalized then ((∑ j, s1 j * Real.log (s1 j)) + ∑ i, s2 i * Real.log (s2 i)) / (∑ i, ∑ j, jh i j * Real.log (jh i j)) - 1
  else (∑ i, ∑ j, jh i j * Real.log (jh i j)) - (∑ j, s1 j * Real.log (s1 j)) - ∑ i, s2 i * Real.log (s2 i)

/-- mutual.py L105-148: `mutual_information_2d`. -/
noncomputable def mutualInformation2d (p : List (ℝ × ℝ)) (sigma : ℝ) (normalized : Bool) : ℝ :=
  mi2d (joint (b := 256) sigma p) normalized

end Cdmir.Mutual
