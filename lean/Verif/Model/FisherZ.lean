import Verif.Model.Indep
import Verif.Model.Tetrad
import Mathlib.LinearAlgebra.Matrix.NonsingularInverse
import Mathlib.Analysis.SpecialFunctions.Log.Basic
import Mathlib.Probability.CDF
import Mathlib.Probability.Distributions.Gaussian.Real

/-!
Model of cdmir/utils/independence/functional/fisherz.py and cdmir/utils/independence/fisherz.py.

Numbers are real numbers. `scipy.stats.norm.cdf` is the distribution function of the standard normal distribution. `np.corrcoef` gives NaN for a constant column;
such columns are not modelled (here the correlation with a constant column is zero).
-/

namespace Cdmir.Fisher

/-- A p-value: a number or NaN. -/
inductive PV where
  | nan
  | val (p : ℝ)

/-- Comparison of floats: false if one side is NaN (`pval >= alpha`, adjacency_search.py L41, L85). -/
instance : LE PV := ⟨fun a b => match a, b with
  | .val a, .val b => a ≤ b
  | _, _ => False⟩

noncomputable instance : DecidableLE PV := fun _ _ => Classical.dec _

/-- The statistic: a number, plus or minus infinity, or NaN. -/
inductive Stat where
  | fin (r : ℝ)
  | inf (pos : Bool)
  | nan

/-- `corr[i]` with Python's negative indices: functional/fisherz.py L27. -/
def toIdx (n : ℕ) (i : Int) : Except Err (Fin n) :=
  let k := if i < 0 then i + n else i
  if h : 0 ≤ k ∧ k.toNat < n then .ok ⟨k.toNat, h.2⟩ else .error .index

/-- `var = [x_id, y_id] + z_ids`: functional/fisherz.py L26. -/
def var {n : ℕ} (i j : Fin n) (zs : List (Fin n)) : Fin (zs.length + 2) → Fin n := (i :: j :: zs).get

noncomputable section

/-- `-a / sqrt(abs(b))`, with numpy's division by zero: functional/fisherz.py L29. -/
def statOf (a b : ℝ) : Stat :=
  if b = 0 then (if a = 0 then .nan else .inf (decide (a < 0))) else .fin (-a / Real.sqrt |b|)

/-- `min(0.9999999, abs(stats))`: functional/fisherz.py L30. Python's `min` keeps the first argument if the second is NaN. -/
def absStat : Stat → ℝ
  | .fin r => min (9999999 / 10000000) |r|
  | _ => 9999999 / 10000000

/-- `1 / 2 * log1p(2 * abs_stats / (1 - abs_stats))`: functional/fisherz.py L31. -/
def zOf (a : ℝ) : ℝ := 1 / 2 * Real.log (1 + 2 * a / (1 - a))

/-- `norm.cdf`: functional/fisherz.py L33. -/
def normCdf (x : ℝ) : ℝ := ProbabilityTheory.cdf (ProbabilityTheory.gaussianReal 0 1) x

/-- The p-value: functional/fisherz.py L32-33. The square root of a negative number is NaN. -/
def pOf (N k : ℕ) (s : Stat) : PV :=
  if N < k + 3 then .nan
  else .val (2 * (1 - normCdf (abs (Real.sqrt ((N : ℝ) - k - 3) * abs (zOf (absStat s))))))

/-- functional/fisherz.py L28-34, for ids that exist: `LinAlgError` if the matrix is singular. -/
def fromSub {n : ℕ} (corr : Matrix (Fin n) (Fin n) ℝ) (N : ℕ) (i j : Fin n) (zs : List (Fin n)) : Except Err (PV × Stat) :=
  let sub := corr.submatrix (var i j zs) (var i j zs)
  if sub.det = 0 then .error .exception
  else
    let s := statOf (sub⁻¹ 0 1) (sub⁻¹ 0 0 * sub⁻¹ 1 1)
    .ok (pOf N zs.length s, s)

/-- functional/fisherz.py L24-34: `fisherz_from_corr`. `z_ids` is `None` or a list (`+` raises `TypeError` for anything else). -/
def fisherzFromCorr {n : ℕ} (corr : Matrix (Fin n) (Fin n) ℝ) (N : ℕ) (x y : Int) (z : Option (List Int)) :
    Except Err (PV × Stat) := do
  let i ← toIdx n x
  let j ← toIdx n y
  let zs ← (z.getD []).mapM (toIdx n)
  fromSub corr N i j zs

/-- `np.corrcoef(data, rowvar=False)`: fisherz.py L16, functional/fisherz.py L16. The data are given by columns. -/
def corrcoef {n N : ℕ} (data : Fin n → Fin N → ℝ) : Matrix (Fin n) (Fin n) ℝ :=
  Matrix.of fun i j => Tetrad.cov (data i) (data j) / (Real.sqrt (Tetrad.cov (data i) (data i)) * Real.sqrt (Tetrad.cov (data j) (data j)))

/-- functional/fisherz.py L8-21: `fisherz`, for columns `x`, `y` and the columns of `Z`. -/
def fisherz {N m : ℕ} (x y : Fin N → ℝ) (Z : Fin m → Fin N → ℝ) : Except Err (PV × Stat) :=
  fisherzFromCorr (corrcoef (Matrix.vecCons x (Matrix.vecCons y Z))) N 0 1 (some ((List.range m).map fun k : ℕ => (k : Int) + 2))

/-- A `FisherZ` object as the searches see it, fisherz.py L12-19 and basic_independence.py L32-46. A pair is always true. -/
def fisherTest {α : Type} [DecidableEq α] (names : List α) (corr : Matrix (Fin names.length) (Fin names.length) ℝ) (N : ℕ) :
    CITest α (Cache (PV × Stat)) PV := fun u v z c => do
  let (r, c) ← citTest (fun _ => true) (fisherzFromCorr corr N) names c u v (some z)
  pure (r.1, c)

end

end Cdmir.Fisher
