import Verif.Model.Kernel
import Mathlib.Analysis.SpecialFunctions.Exp
import Mathlib.Analysis.SpecialFunctions.Pow.Real
import Mathlib.LinearAlgebra.Matrix.Trace
import Mathlib.Data.List.Sort
import Mathlib.Data.List.FinRange

/-! Model of the kernel tests of independence: `functional/kci.py`, the unconditional test of `kernel_based.py` (approximate mode),
`functional/HSIC.py` (the same file is in `LearningHierarchicalStructure` twice) and the scores of `ANM.py`.

Numbers are real numbers and `exp` and the square root are the true ones. A number that is not finite (NaN, or a division by zero) is
`none` where the code can produce one. The distribution function and the quantile function of the gamma distribution are parameters. -/

namespace Cdmir.KTest
open BigOperators

noncomputable section

/-- A sample: `n` rows, `d` columns. -/
abbrev Data (n d : Nat) := Fin n → Fin d → ℝ

variable {n d e : Nat}

/-- `np.mean` of a column. -/
def mean (x : Fin n → ℝ) : ℝ := (∑ i, x i) / n

/-- Sum of the squared deviations from the mean. -/
def devs (x : Fin n → ℝ) : ℝ := ∑ i, (x i - mean x) ^ 2

/-- `stats.zscore(X, ddof=1, axis=0)`, one column: NaN if the standard deviation is 0 or there is one row. -/
def zscore (x : Fin n → ℝ) (i : Fin n) : Option ℝ :=
  if n ≤ 1 ∨ devs x = 0 then none else some ((x i - mean x) / Real.sqrt (devs x / ((n : ℝ) - 1)))

/-- kci.py L40-43, kernel_based.py L83-86: the columns are standardised and NaN is replaced by 0. -/
def standardise (X : Data n d) : Data n d := fun i k => (zscore (fun i => X i k) i).getD 0

/-- `squareform(pdist(X, 'sqeuclidean'))`, `cdist(X, X, 'sqeuclidean')`. -/
def sqDist (X : Data n d) (i j : Fin n) : ℝ := ∑ k, (X i k - X j k) ^ 2

/-- kci.py L62-77: `_gaussian_kernel` (the argument `width` is not used by the code). -/
def gaussianKernel (X : Data n d) : Matrix (Fin n) (Fin n) ℝ := fun i j => Real.exp (-(1 / 2) * sqDist X i j)

/-- kernel/gaussian.py L39-46: `__kernel_func` for a sample with itself and a fixed width. -/
def gaussianWidth (w : ℝ) (X : Data n d) : Matrix (Fin n) (Fin n) ℝ := fun i j => Real.exp (-(1 / 2) * sqDist X i j * w)

/-- kci.py L50, HSIC.py L81, ANM.py L57: `np.eye(n) - np.ones((n, n)) / n`. -/
def hMat (n : Nat) : Matrix (Fin n) (Fin n) ℝ := 1 - Matrix.of fun _ _ => 1 / (n : ℝ)

/-- kci.py L51-52, HSIC.py L86-87, ANM.py L62-63: `H @ K @ H`. -/
def center (K : Matrix (Fin n) (Fin n) ℝ) : Matrix (Fin n) (Fin n) ℝ := hMat n * K * hMat n

/-- kci.py L55, kernel_based.py L97: `np.sum(Kx * Ky)`. -/
def hsicStat (Kx Ky : Matrix (Fin n) (Fin n) ℝ) : ℝ := ∑ i, ∑ j, Kx i j * Ky i j

/-- kci.py L94, kernel_based.py L102. -/
def meanApprox (Kx Ky : Matrix (Fin n) (Fin n) ℝ) : ℝ := Kx.trace * Ky.trace / n

/-- kci.py L95, kernel_based.py L103-104. -/
def varApprox (Kx Ky : Matrix (Fin n) (Fin n) ℝ) : ℝ := 2 * (∑ i, ∑ j, Kx i j ^ 2) * (∑ i, ∑ j, Ky i j ^ 2) / (n : ℝ) ^ 2

/-- kci.py L79-101, kernel_based.py L72-73, L100-107: the p-value by the gamma approximation; `cdf x k theta` is the distribution function
of the gamma distribution. NaN if one of the two parameters is not a number. -/
def gammaPvalue (cdf : ℝ → ℝ → ℝ → ℝ) (Kx Ky : Matrix (Fin n) (Fin n) ℝ) (stat : ℝ) : Option ℝ :=
  let m := meanApprox Kx Ky
  let v := varApprox Kx Ky
  if v = 0 ∨ m = 0 then none else some (1 - cdf stat (m ^ 2 / v) (v / m))

/-- kci.py L25-60: `KCI.test`, the p-value and the statistic. -/
def kciTest (cdf : ℝ → ℝ → ℝ → ℝ) (X : Data n d) (Y : Data n e) : Option ℝ × ℝ :=
  let Kx := center (gaussianKernel (standardise X))
  let Ky := center (gaussianKernel (standardise Y))
  let stat := hsicStat Kx Ky
  (gammaPvalue cdf Kx Ky stat, stat)

/-- kernel_based.py L66-93: the unconditional test with Gaussian kernels of the widths `wx` and `wy`, in the approximate mode. The cache of the
kernel is not modelled here (C66). -/
def ukciTest (cdf : ℝ → ℝ → ℝ → ℝ) (wx wy : ℝ) (X : Data n d) (Y : Data n e) : Option ℝ × ℝ :=
  let Kx := centerKernelMatrix (gaussianWidth wx (standardise X))
  let Ky := centerKernelMatrix (gaussianWidth wy (standardise Y))
  let stat := hsicStat Kx Ky
  (gammaPvalue cdf Kx Ky stat, stat)

/-- HSIC.py L55-59, ANM.py L35-37: `Q + R - 2 * np.dot(X, X.T)`. -/
def gramDist (X : Data n d) (i j : Fin n) : ℝ :=
  (∑ k, X i k * X i k) + (∑ k, X j k * X j k) - 2 * ∑ k, X i k * X j k

/-- HSIC.py L60-63, ANM.py L39-40: `dists - np.tril(dists)`, flattened, the positive entries. -/
def upper (D : Fin n → Fin n → ℝ) : List ℝ :=
  ((List.finRange n).flatMap fun i => (List.finRange n).map fun j => if i < j then D i j else 0).filter fun x => decide (0 < x)

/-- `np.median`: NaN for an empty array. -/
def median (l : List ℝ) : Option ℝ :=
  let s := l.insertionSort (· ≤ ·)
  if l = [] then none
  else if l.length % 2 = 1 then some (s.getD (l.length / 2) 0)
  else some ((s.getD (l.length / 2 - 1) 0 + s.getD (l.length / 2) 0) / 2)

/-- HSIC.py L63, L77, ANM.py L40: the width of the kernel. -/
def width (X : Data n d) : Option ℝ := (median (upper (gramDist X))).map fun m => Real.sqrt (1 / 2 * m)

/-- HSIC.py L27-41, ANM.py L41: `rbf_dot(X, X, deg)`. -/
def rbfDot (X : Data n d) (deg : ℝ) : Matrix (Fin n) (Fin n) ℝ := fun i j => Real.exp (-gramDist X i j / 2 / deg ^ 2)

/-- HSIC.py L91: the statistic. -/
def statOf (Kc Lc : Matrix (Fin n) (Fin n) ℝ) : ℝ := (∑ i, ∑ j, Kc j i * Lc i j) / n

/-- HSIC.py L93-95: the entries are squared, the diagonal left out. -/
def varBase (Kc Lc : Matrix (Fin n) (Fin n) ℝ) : ℝ :=
  ((∑ i, ∑ j, (Kc i j * Lc i j / 6) ^ 2) - ∑ i, (Kc i i * Lc i i / 6) ^ 2) / n / ((n : ℝ) - 1)

/-- HSIC.py L97: not a finite number if one of the divisors is 0. -/
def varHsic (Kc Lc : Matrix (Fin n) (Fin n) ℝ) : Option ℝ :=
  if n ≤ 3 then none
  else some (varBase Kc Lc * 72 * ((n : ℝ) - 4) * ((n : ℝ) - 5) / n / ((n : ℝ) - 1) / ((n : ℝ) - 2) / ((n : ℝ) - 3))

/-- HSIC.py L99, L102: mean of the entries outside the diagonal. -/
def mu (K : Matrix (Fin n) (Fin n) ℝ) : ℝ := (∑ i, ∑ j, if i = j then 0 else K i j) / n / ((n : ℝ) - 1)

/-- HSIC.py L105. -/
def meanHsic (K L : Matrix (Fin n) (Fin n) ℝ) : ℝ := (1 + mu K * mu L - mu K - mu L) / n

/-- HSIC.py L44-114: `hsic_gam`, the statistic and the threshold. `ppf q al bet` is the quantile function of the gamma distribution. The quantile
is NaN if a parameter is not a finite number or not positive, which is the case if the variance is not finite or 0 or the mean is 0. The unused
`pval` of L110 is left out. -/
def hsicGam (ppf : ℝ → ℝ → ℝ → Option ℝ) (alpha : ℝ) (X : Data n d) (Y : Data n e) : Option ℝ × Option ℝ :=
  match width X, width Y with
  | some wx, some wy =>
    let K := rbfDot X wx
    let L := rbfDot Y wy
    let m := meanHsic K L
    (some (statOf (center K) (center L)),
      match varHsic (center K) (center L) with
      | none => none
      | some v => if v = 0 ∨ m = 0 then none else ppf (1 - alpha) (m ^ 2 / v) (v * n / m))
  | _, _ => (none, none)

/-- HSIC.py L117-126: `test`, and `independent` of the copies: `some b` is a returned truth value, `none` is `None`. All comparisons
with NaN are false. -/
def hsicTest (ppf : ℝ → ℝ → ℝ → Option ℝ) (alpha : ℝ) (X : Data n 1) (Y : Data n 1) : Option Bool :=
  match hsicGam ppf alpha X Y with
  | (some s, some t) => if s < t then some true else if t < s then some false else none
  | _ => none

/-- ANM.py L48: the numbers of the rows kept if there are more than `maxpnt`, `np.floor(np.r_[0:m:(m-1)/(maxpnt-1)])` in exact arithmetic. -/
def kept (m maxpnt : Nat) : List Nat :=
  ((List.range m).map fun k => k * (m - 1) / (maxpnt - 1)).filter fun i => decide (i < m)

/-- ANM.py L48-54: the positions of the rows that are used. -/
def rows (n maxpnt : Nat) : List (Fin n) :=
  if n ≤ maxpnt then List.finRange n else (kept n maxpnt).filterMap fun i => if h : i < n then some ⟨i, h⟩ else none

/-- ANM.py L50-51: `X[indx]`. -/
def take (l : List (Fin n)) (X : Data n d) : Data l.length d := fun a k => X (l.get a) k

/-- ANM.py L45-70: `FastHsicTestGamma` with the default `sig`, once the rows are chosen: 0 in place of NaN. -/
def fastHsicOf (X : Data n d) (Y : Data n e) : ℝ :=
  match width X, width Y with
  | some wx, some wy => 1 / (n : ℝ) * ∑ i, ∑ j, center (rbfDot X wx) j i * center (rbfDot Y wy) i j
  | _, _ => 0

/-- ANM.py L45-70: `FastHsicTestGamma` with the default `sig`. -/
def fastHsic (maxpnt : Nat) (X : Data n d) (Y : Data n e) : ℝ :=
  fastHsicOf (take (rows n maxpnt) X) (take (rows n maxpnt) Y)

/-- ANM.py L74-75: `(x - np.mean(x)) / np.std(x)` over all entries; NaN in all entries if the standard deviation is 0. -/
def normAll (X : Data n d) : Option (Data n d) :=
  let m := (∑ i, ∑ k, X i k) / ((n : ℝ) * d)
  let v := (∑ i, ∑ k, (X i k - m) ^ 2) / ((n : ℝ) * d)
  if v = 0 then none else some fun i k => (X i k - m) / Real.sqrt v

/-- ANM.py L73-78: `normalized_hsic`. -/
def normalizedHsic (X : Data n d) (Y : Data n e) : ℝ :=
  match normAll X, normAll Y with
  | some X, some Y => fastHsic 2000 X Y
  | _, _ => 0

/-- `sklearn.preprocessing.scale` of one column: a constant column is only centred. -/
def scale (x : Fin n → ℝ) (i : Fin n) : ℝ :=
  let s := Real.sqrt (devs x / n)
  (x i - mean x) / (if s = 0 then 1 else s)

/-- The column as an array of shape `(n, 1)`. -/
def col (x : Fin n → ℝ) : Data n 1 := fun i _ => x i

/-- ANM.py L101-104, if `gp.predict` returns an array of shape `(n, 1)` (old scikit-learn). `gp x y` are the predictions for `y` at `x`. -/
def anmScoreCol (gp : (Fin n → ℝ) → (Fin n → ℝ) → Fin n → ℝ) (x y : Fin n → ℝ) : ℝ :=
  normalizedHsic (col fun i => gp x y i - y i) (col x)

/-- ANM.py L101-104, if `gp.predict` returns an array of shape `(n,)` (scikit-learn since 1.1): `y_predict - y` has then shape `(n, n)`. -/
def anmScoreFlat (gp : (Fin n → ℝ) → (Fin n → ℝ) → Fin n → ℝ) (x y : Fin n → ℝ) : ℝ :=
  normalizedHsic (fun i j => gp x y j - y i : Data n n) (col x)

/-- ANM.py L86-99: `cause_or_effect`. -/
def causeOrEffect (score : (Fin n → ℝ) → (Fin n → ℝ) → ℝ) (x y : Fin n → ℝ) : ℝ × ℝ :=
  (score (scale x) (scale y), score (scale y) (scale x))

end

end Cdmir.KTest
