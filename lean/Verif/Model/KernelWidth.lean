import Verif.Model.KernelTest

/-! Model of the rules for the width of `GaussianKernel` (cdmir/utils/kernel/gaussian.py L42-L103). What the class calls a width multiplies the squared
distance. Numbers are real numbers; a width that is NaN is `none`. The cache is not modelled here (C66). -/

namespace Cdmir.KTest

noncomputable section

variable {n d : Nat}

/-- gaussian.py L73: `data_x[permutation(n)[:1000], :]` for more than 1000 rows; `pp` is the drawn permutation. The rows taken, otherwise all. -/
def taken (pp : Equiv.Perm (Fin n)) : List (Fin n) := if 1000 < n then ((List.finRange n).map pp).take 1000 else List.finRange n

/-- gaussian.py L74-L75: the positive entries of the square matrix of the distances of the rows taken. -/
def positiveDists (X : Data n d) (l : List (Fin n)) : List ℝ :=
  (l.flatMap fun i => l.map fun j => Real.sqrt (sqDist X i j)).filter fun x => decide (0 < x)

/-- gaussian.py L69-L78: `__cal_kernel_width_by_median`. -/
def thetaMedian (pp : Equiv.Perm (Fin n)) (X : Data n d) : Option ℝ :=
  (median (positiveDists X (taken pp))).map fun m =>
    let width := Real.sqrt 2 * m
    1 / width ^ 2

/-- gaussian.py L80-L90: `__cal_kernel_width_by_empirical_kci`. For no columns numpy's division by zero is infinite; the model has 0 there, and nothing is said about it. -/
def thetaKci (n d : Nat) : ℝ :=
  let width : ℝ := if n < 200 then 12 / 10 else if n < 1200 then 7 / 10 else 4 / 10
  1 / width ^ 2 / d

/-- gaussian.py L92-L103: `__cal_kernel_width_by_empirical_hsic`. -/
def thetaHsic (n d : Nat) : ℝ :=
  let width : ℝ := if n < 200 then 8 / 10 else if n < 1200 then 5 / 10 else 3 / 10
  1 / width ^ 2 * d

/-- gaussian.py L13-L18: `WidthStrategyEnum`. -/
inductive Strategy
  | manual
  | median
  | kci
  | hsic

/-- gaussian.py L29-L31, L51-L67: the width of a call with the data `X` as first argument. -/
def callWidth (s : Strategy) (w : ℝ) (pp : Equiv.Perm (Fin n)) (X : Data n d) : Option ℝ :=
  match s with
  | .manual => some w
  | .median => thetaMedian pp X
  | .kci => some (thetaKci n d)
  | .hsic => some (thetaHsic n d)

/-- gaussian.py L26-L49: the kernel matrix of `X` with itself, computed anew; every entry is NaN if the width is. -/
def callKernel (s : Strategy) (w : ℝ) (pp : Equiv.Perm (Fin n)) (X : Data n d) : Option (Matrix (Fin n) (Fin n) ℝ) :=
  (callWidth s w pp X).map fun t => gaussianWidth t X

end

end Cdmir.KTest
