import Verif.Model.KernelTest
import Verif.Model.Py
import Mathlib.Data.Fin.Tuple.Basic

/-! Model of the conditional kernel test of independence of `kernel_based.py` (both ways of getting the kernel of the condition, both modes) and
of the non-approximate mode of the unconditional one.

As in `KernelTest.lean` the numbers are real numbers. The external functions are parameters: `eigh`, `argsort`, `eigvalsh` and `pinv` of numpy, the
fit of a Gaussian process of scikit-learn, the distribution function of the gamma distribution and the random draws. The kernels are Gaussian with a
fixed width. -/

namespace Cdmir.KTest
open BigOperators

noncomputable section

variable {n d e f : Nat}

/-- What the test uses of numpy for symmetric matrices of size `n`: `eigh` (eigenvalues, eigenvectors as columns) and `argsort(-w)`. -/
structure Eig (n : Nat) where
  eigh : Matrix (Fin n) (Fin n) ℝ → (Fin n → ℝ) × Matrix (Fin n) (Fin n) ℝ
  order : (Fin n → ℝ) → List (Fin n)

/-- `np.max`: raises for an empty array. -/
def npMax : List ℝ → Except Err ℝ
  | [] => .error .value
  | a :: l => .ok (l.foldl max a)

/-- kernel_based.py L184-188, L251-258: `eigh(0.5 * (K + K.T))`, sorted by `argsort(-w)`: pairs of an eigenvalue and its eigenvector. -/
def sortedPairs (E : Eig n) (K : Matrix (Fin n) (Fin n) ℝ) : List (ℝ × (Fin n → ℝ)) :=
  let wv := E.eigh ((1 / 2 : ℝ) • (K + K.transpose))
  (E.order wv.1).map fun i => (wv.1 i, fun t => wv.2 t i)

/-- kernel_based.py L191-192, L259-262: the eigenvalues above `max * lambda_product_threshold` and their eigenvectors. -/
def keepLarge (thr : ℝ) (l : List (ℝ × (Fin n → ℝ))) : Except Err (List (ℝ × (Fin n → ℝ))) := do
  let m ← npMax (l.map Prod.fst)
  return l.filter fun p => decide (m * thr < p.1)

/-- kernel_based.py L251-264: `vx.dot(np.diag(np.sqrt(wx)))`, the columns. -/
def scaledCols (E : Eig n) (thr : ℝ) (K : Matrix (Fin n) (Fin n) ℝ) : Except Err (List (Fin n → ℝ)) := do
  let l ← keepLarge thr (sortedPairs E K)
  return l.map fun p t => p.2 t * Real.sqrt p.1

/-- kernel_based.py L271-274: the columns of `uu`. -/
def uuCols (vx vy : List (Fin n → ℝ)) : List (Fin n → ℝ) := vx.flatMap fun a => vy.map fun b t => a t * b t

/-- A square matrix of some size. -/
abbrev Square := (k : Nat) × Matrix (Fin k) (Fin k) ℝ

/-- kernel_based.py L276-279: `uu.dot(uu.T)` if there are more columns than rows, else `uu.T.dot(uu)`. -/
def uuProd (u : List (Fin n → ℝ)) : Square :=
  if n < u.length then ⟨n, fun s t => (u.map fun c => c s * c t).sum⟩
  else ⟨u.length, fun i j => ∑ t, u.get i t * u.get j t⟩

/-- kernel_based.py L249-281: `get_uuprod`, the matrix and `size_u`. -/
def getUuprod (E : Eig n) (thr : ℝ) (Kx Ky : Matrix (Fin n) (Fin n) ℝ) : Except Err (Square × Nat) := do
  let vx ← scaledCols E thr Kx
  let vy ← scaledCols E thr Ky
  return (uuProd (uuCols vx vy), vx.length * vy.length)

/-- kernel_based.py L283-289: `get_kappa`; NaN if a divisor is 0. -/
def getKappa (M : Square) : Option (ℝ × ℝ) :=
  let m := M.2.trace
  let v := 2 * (M.2 * M.2).trace
  if v = 0 ∨ m = 0 then none else some (m ^ 2 / v, v / m)

/-- kernel_based.py L293-296: the weights of the null distribution; `eigvalsh` are the eigenvalues. -/
def nullWeights (eigvalsh : (k : Nat) → Matrix (Fin k) (Fin k) ℝ → List ℝ) (thr : ℝ) (M : Square) (sizeU T : Nat) : Except Err (List ℝ) := do
  let l := ((eigvalsh M.1 M.2).insertionSort (· ≥ ·)).take (min T sizeU)
  let m ← npMax l
  return l.filter fun x => decide (m * thr < x)

/-- kernel_based.py L298-299: `weights.T.dot(f_rand)` for the draws `draw i s` of the `i`-th weight and the `s`-th sample. -/
def nullSamples (draw : Nat → Nat → ℝ) (N : Nat) (weights : List ℝ) : List ℝ :=
  (List.range N).map fun s => (weights.zipIdx.map fun p => p.1 * draw p.2 s).sum

/-- kernel_based.py L76, L171: the share of the samples above the statistic (`N` is `null_distribution_sample_size`). -/
def empiricalP (N : Nat) (samples : List ℝ) (stat : ℝ) : ℝ := (samples.filter fun x => decide (stat < x)).length / (N : ℝ)

/-- kernel/_base.py L36-42: `center_kernel_matrix_regression`, both results. -/
def centerRegression (pinv : Matrix (Fin n) (Fin n) ℝ → Matrix (Fin n) (Fin n) ℝ) (K Kz : Matrix (Fin n) (Fin n) ℝ) (eps : ℝ) :
    Matrix (Fin n) (Fin n) ℝ × Matrix (Fin n) (Fin n) ℝ :=
  let R := eps • pinv (Kz + eps • 1)
  (R * (K * R), R)

/-- kernel_based.py L176-203: `kernel_matrix_for_z`, where `gp width data targets` is what the fit of the Gaussian process gives: the matrix of the
learned kernel without its noise and the learned noise. `w` is the width of the kernel for x and `cols` the number of columns of its data; both are
used for y, too (L179-180). -/
def kernelForZ (E : Eig n) (gp : ℝ → Data n f → List (Fin n → ℝ) → Matrix (Fin n) (Fin n) ℝ × ℝ) (thr w : ℝ) (cols : Nat)
    (K : Matrix (Fin n) (Fin n) ℝ) (Z : Data n f) : Except Err (Matrix (Fin n) (Fin n) ℝ × ℝ) := do
  let l ← keepLarge thr ((sortedPairs E K).take (min 400 (n / 4)))
  match l with
  | [] => .error .index
  | p :: _ => return gp (Real.sqrt (1 / (w * cols))) Z (l.map fun q t => 2 * Real.sqrt n * (q.2 t * Real.sqrt q.1) / Real.sqrt p.1)

/-- How the kernel of the condition is found (kernel_based.py L129-153): a Gaussian kernel given by the caller, with the two regularisation
constants, or (`kernel_z=None`) Gaussian processes. -/
inductive ZMode (n f : Nat)
  | kernel (wz epsx epsy : ℝ)
  | process (gp : ℝ → Data n f → List (Fin n → ℝ) → Matrix (Fin n) (Fin n) ℝ × ℝ)

/-- kernel_based.py L206-218: the data for the kernel of x, the columns of x and half of those of the condition. -/
def joint (X : Data n d) (Z : Data n f) : Data n (d + f) := fun i => Fin.append (standardise X i) fun k => 1 / 2 * standardise Z i k

/-- kernel_based.py L174-247: `kernel_matrix` and `KCI_V_statistic`: the statistic and the two residual kernel matrices. -/
def ckciStat (E : Eig n) (pinv : Matrix (Fin n) (Fin n) ℝ → Matrix (Fin n) (Fin n) ℝ) (mode : ZMode n f) (thr wx wy : ℝ)
    (X : Data n d) (Y : Data n e) (Z : Data n f) : Except Err (ℝ × Matrix (Fin n) (Fin n) ℝ × Matrix (Fin n) (Fin n) ℝ) := do
  let Kx := centerKernelMatrix (gaussianWidth wx (joint X Z))
  let Ky := centerKernelMatrix (gaussianWidth wy (standardise Y))
  match mode with
  | .kernel wz epsx epsy =>
    let Kz := centerKernelMatrix (gaussianWidth wz (standardise Z))
    let r := centerRegression pinv Kx Kz epsx
    let KyR := if epsx ≠ epsy then (centerRegression pinv Ky Kz epsy).1 else r.2 * (Ky * r.2)
    return (hsicStat r.1 KyR, r.1, KyR)
  | .process gp =>
    let zx ← kernelForZ E gp thr wx (d + f) Kx (standardise Z)
    let zy ← kernelForZ E gp thr wx (d + f) Ky (standardise Z)
    let KxR := (centerRegression pinv Kx zx.1 zx.2).1
    let KyR := (centerRegression pinv Ky zy.1 zy.2).1
    return (hsicStat KxR KyR, KxR, KyR)

/-- kernel_based.py L161-168: the conditional test in the approximate mode. The cache is not modelled here (C66). -/
def ckciTest (E : Eig n) (pinv : Matrix (Fin n) (Fin n) ℝ → Matrix (Fin n) (Fin n) ℝ) (cdf : ℝ → ℝ → ℝ → ℝ) (mode : ZMode n f) (thr wx wy : ℝ)
    (X : Data n d) (Y : Data n e) (Z : Data n f) : Except Err (Option ℝ × ℝ) := do
  let r ← ckciStat E pinv mode thr wx wy X Y Z
  let u ← getUuprod E thr r.2.1 r.2.2
  return ((getKappa u.1).map fun kt => 1 - cdf r.1 kt.1 kt.2, r.1)

/-- kernel_based.py L161-172: the conditional test in the other mode, with `N` samples of the null distribution. -/
def ckciSpectral (E : Eig n) (eigvalsh : (k : Nat) → Matrix (Fin k) (Fin k) ℝ → List ℝ)
    (pinv : Matrix (Fin n) (Fin n) ℝ → Matrix (Fin n) (Fin n) ℝ) (draw : Nat → Nat → ℝ) (N : Nat) (mode : ZMode n f) (thr wx wy : ℝ)
    (X : Data n d) (Y : Data n e) (Z : Data n f) : Except Err (ℝ × ℝ) := do
  let r ← ckciStat E pinv mode thr wx wy X Y Z
  let u ← getUuprod E thr r.2.1 r.2.2
  let w ← nullWeights eigvalsh thr u.1 u.2 n
  return (empiricalP N (nullSamples draw N w) r.1, r.1)

/-- kernel_based.py L109-122: the weights of the null distribution of the unconditional test. `npInt` says whether numpy still has `np.int`
(removed in 1.24), which is needed for more than 1000 rows. -/
def spectralWeights (npInt : Bool) (eigvalsh : (k : Nat) → Matrix (Fin k) (Fin k) ℝ → List ℝ) (thr : ℝ)
    (Kx Ky : Matrix (Fin n) (Fin n) ℝ) : Except Err (List ℝ) := do
  let num ← if 1000 < n then (if npInt then .ok (n / 2) else .error .exception) else .ok n
  let lx := ((eigvalsh n Kx).insertionSort (· ≥ ·)).take num
  let ly := ((eigvalsh n Ky).insertionSort (· ≥ ·)).take num
  let prod := lx.flatMap fun a => ly.map fun b => a * b
  let m ← npMax prod
  return prod.filter fun x => decide (m * thr < x)

/-- kernel_based.py L66-77 and L123-125: the unconditional test in the non-approximate mode (with `N = 1` the code raises: `squeeze`
removes the only axis). -/
def ukciSpectral (npInt : Bool) (eigvalsh : (k : Nat) → Matrix (Fin k) (Fin k) ℝ → List ℝ) (draw : Nat → Nat → ℝ) (N : Nat) (thr wx wy : ℝ)
    (X : Data n d) (Y : Data n e) : Except Err (ℝ × ℝ) := do
  let Kx := centerKernelMatrix (gaussianWidth wx (standardise X))
  let Ky := centerKernelMatrix (gaussianWidth wy (standardise Y))
  let w ← spectralWeights npInt eigvalsh thr Kx Ky
  return (empiricalP N ((nullSamples draw N w).map fun x => x / n) (hsicStat Kx Ky), hsicStat Kx Ky)

end

end Cdmir.KTest
