import Verif.Model.Py
import Mathlib.Analysis.Real.Sqrt
import Mathlib.Data.Matrix.Mul
import Mathlib.Data.Matrix.Diagonal
import Mathlib.Algebra.BigOperators.Fin
import Mathlib.Analysis.SpecialFunctions.Trigonometric.DerivHyp

/-! Model of the Wald test of cdmir/discovery/funtional_based/lingam_based/ica_lingam.py, L32-143. Numbers are real. `np.linalg.pinv`,
`np.linalg.svd` and `scipy.stats.chi2.cdf` are parameters. A position `dim * i + k` of a vector of length `dim ** 2` is the pair `(i, k)`. -/

namespace Cdmir.Wald
open BigOperators Matrix

variable {d N : Nat}

/-- ica_lingam.py L40: `y = W.T.dot(Z[:, k])`, an array with one axis. -/
def src (Z : Matrix (Fin d) (Fin N) ℝ) (W : Matrix (Fin d) (Fin d) ℝ) (k : Fin N) (a : Fin d) : ℝ := ∑ r, W r a * Z r k

/-- `a.dot(b.T)` for arrays with one axis: a number. -/
def dot1 (a b : Fin d → ℝ) : ℝ := ∑ i, a i * b i

/-- ica_lingam.py L36-46: `fk`. The products are numbers, subtracting `np.eye(dim)` gives a matrix, which is flattened by columns. -/
noncomputable def fk (g : ℝ → ℝ) (Z : Matrix (Fin d) (Fin N) ℝ) (W : Matrix (Fin d) (Fin d) ℝ) (k : Fin N) : Fin d × Fin d → ℝ :=
  let y := src Z W k
  let ygy := dot1 y fun a => g (y a)
  let out : Matrix (Fin d) (Fin d) ℝ := Matrix.of fun r c => dot1 y y - (if r = c then 1 else 0) + ygy - ygy
  fun p => out p.2 p.1

/-- ica_lingam.py L53-70: `computeQblock`; row `k`, column `r`. -/
noncomputable def qBlock (g dg : ℝ → ℝ) (i j : Fin d) (Z : Matrix (Fin d) (Fin N) ℝ) (W : Matrix (Fin d) (Fin d) ℝ) (k r : Fin d) : ℝ :=
  let S := fun a s => src Z W s a
  let mean := fun v : Fin N → ℝ => (∑ s, v s) / N
  if i = j then
    if k = i then 2 * W r i
    else (1 - mean (fun s => S k s * g (S k s)) + mean fun s => dg (S i s)) * W r k
  else
    if k = j then (1 - mean (fun s => dg (S j s)) + mean fun s => S i s * g (S i s)) * W r i
    else 0

/-- ica_lingam.py L73-81: `computeQ`. -/
noncomputable def computeQ (g dg : ℝ → ℝ) (Z : Matrix (Fin d) (Fin N) ℝ) (W : Matrix (Fin d) (Fin d) ℝ) : Matrix (Fin d × Fin d) (Fin d × Fin d) ℝ :=
  Matrix.of fun p q => qBlock g dg p.1 q.1 Z W p.2 q.2

/-- ica_lingam.py L88-95: the mean of the outer products. -/
noncomputable def covf (g : ℝ → ℝ) (Z : Matrix (Fin d) (Fin N) ℝ) (W : Matrix (Fin d) (Fin d) ℝ) : Matrix (Fin d × Fin d) (Fin d × Fin d) ℝ :=
  Matrix.of fun p q => (∑ k, fk g Z W k p * fk g Z W k q) / N

/-- ica_lingam.py L84-104: `acovW`. -/
noncomputable def acovW (pinv : Matrix (Fin d × Fin d) (Fin d × Fin d) ℝ → Matrix (Fin d × Fin d) (Fin d × Fin d) ℝ) (g dg : ℝ → ℝ)
    (Z : Matrix (Fin d) (Fin N) ℝ) (W : Matrix (Fin d) (Fin d) ℝ) : Matrix (Fin d × Fin d) (Fin d × Fin d) ℝ :=
  let invQ := pinv (computeQ g dg Z W)
  Matrix.of fun p q => (invQ * covf g Z W * invQ.transpose) p q / N

/-- ica_lingam.py L112: `np.cov`, with division by `sample - 1`. -/
noncomputable def cov (X : Matrix (Fin d) (Fin N) ℝ) : Matrix (Fin d) (Fin d) ℝ :=
  let m := fun i => (∑ s, X i s) / N
  Matrix.of fun i j => (∑ s, (X i s - m i) * (X j s - m j)) / (N - 1)

/-- ica_lingam.py L113-114: the whitening matrix; `svd` gives `E`, `D`, `E_t`. For singular values that are positive. -/
noncomputable def whiten (svd : Matrix (Fin d) (Fin d) ℝ → Matrix (Fin d) (Fin d) ℝ × (Fin d → ℝ) × Matrix (Fin d) (Fin d) ℝ)
    (X : Matrix (Fin d) (Fin N) ℝ) : Matrix (Fin d) (Fin d) ℝ :=
  let (E, D, Et) := svd (cov X)
  E * Matrix.diagonal (fun i => (Real.sqrt (D i))⁻¹) * Et

/-- ica_lingam.py L107-124: `acovB`. -/
noncomputable def acovB (svd : Matrix (Fin d) (Fin d) ℝ → Matrix (Fin d) (Fin d) ℝ × (Fin d → ℝ) × Matrix (Fin d) (Fin d) ℝ)
    (pinvD : Matrix (Fin d) (Fin d) ℝ → Matrix (Fin d) (Fin d) ℝ)
    (pinv : Matrix (Fin d × Fin d) (Fin d × Fin d) ℝ → Matrix (Fin d × Fin d) (Fin d × Fin d) ℝ) (g dg : ℝ → ℝ)
    (X : Matrix (Fin d) (Fin N) ℝ) (B : Matrix (Fin d) (Fin d) ℝ) : Matrix (Fin d × Fin d) (Fin d × Fin d) ℝ :=
  let V := whiten svd X
  let Z := V * X
  let A := acovW pinv g dg Z (pinvD V.transpose * B)
  let G : Matrix (Fin d × Fin d) (Fin d × Fin d) ℝ := Matrix.of fun p q => if p.1 = q.1 then V.transpose p.2 q.2 else 0
  G * A * G.transpose

/-- ica_lingam.py L129-131: the diagonal, reshaped by rows and transposed. -/
def avar (acov : Matrix (Fin d × Fin d) (Fin d × Fin d) ℝ) : Matrix (Fin d) (Fin d) ℝ :=
  let reshaped : Matrix (Fin d) (Fin d) ℝ := Matrix.of fun r c => acov (r, c) (r, c)
  reshaped.transpose

/-- ica_lingam.py L127-135: `calcwald`, given `acovB(X, W.T)`. -/
noncomputable def calcwald (cdf : ℝ → ℝ) (acov : Matrix (Fin d × Fin d) (Fin d × Fin d) ℝ) (W : Matrix (Fin d) (Fin d) ℝ) : Matrix (Fin d) (Fin d) ℝ :=
  Matrix.of fun a b => 1 - cdf (W a b ^ 2 / avar acov a b)

end Cdmir.Wald
