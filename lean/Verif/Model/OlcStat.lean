import Verif.Model.HsicTest

/-! Model of the statistics of cdmir/discovery/funtional_based/one_component/olc.py: `normalize`, `xcum4`, `fisher_test` and the loading
of L229-234. Real numbers; `none` stands for a result that is not a number. -/

namespace Cdmir.OlcStat
open BigOperators

noncomputable section

/-- `np.mean` of a column. -/
def mean {N : Nat} (x : Fin N → ℝ) : ℝ := (∑ i, x i) / N

/-- olc.py L12-13: `normalize` of a column. -/
def normalize {N : Nat} (x : Fin N → ℝ) : Fin N → ℝ := fun i => (x i - mean x) / Real.sqrt (mean fun i => (x i - mean x) ^ 2)

/-- olc.py L23-29: `np.sum(np.prod(X, axis=1, where=w))`, entries left out count as one. -/
def sumProd {N m : Nat} (X : Fin N → Fin m → ℝ) (w : Fin m → Bool) : ℝ := ∑ i, ∏ k, if w k then X i k else 1

/-- olc.py L16-32: `xcum4`. With up to three records `np.true_divide` divides by zero. -/
def xcum4 {N m : Nat} (X : Fin N → Fin m → ℝ) : Except Err (Option ℝ) :=
  if m ≠ 4 then throw .notImplemented
  else
    let n : ℝ := N
    let Y := fun i k => X i k - mean fun i => X i k
    let M := fun l : List Nat => sumProd Y fun k => decide (k.val ∈ l)
    let den := (n - 1) * (n - 2) * (n - 3)
    if den = 0 then pure none
    else pure (some (((n + 1) * n * M [0, 1, 2, 3] - (n - 1) * (M [0, 1] * M [2, 3] + M [0, 2] * M [1, 3] + M [0, 3] * M [1, 2])) * (1 / den)))

/-- olc.py L36: a p-value below 0.00001, or one that is not a number (`none`), becomes 0.00001. -/
def clip (p : Option ℝ) : ℝ :=
  match p with
  | some p => if 1 / 100000 ≤ p then p else 1 / 100000
  | none => 1 / 100000

/-- olc.py L35-38: `fisher_test`. -/
def fisherPval (ps : List (Option ℝ)) : Option ℝ :=
  let stat := -2 * ((ps.map fun p => Real.log (clip p)).sum)
  (HsicTest.chi2Cdf ps.length stat).map (1 - ·)

/-- `np.cov` of two columns. -/
def cov {N : Nat} (x y : Fin N → ℝ) : ℝ := (∑ i, (x i - mean x) * (y i - mean y)) / (N - 1)

/-- olc.py L229-234: the loading of `z` when neither `x` nor `y` has one yet. -/
def loading {N : Nat} (x z : Fin N → ℝ) : Except Err (Option ℝ) := do
  let a ← xcum4 fun i => ![x i, z i, z i, z i]
  let b ← xcum4 fun i => ![x i, x i, z i, z i]
  pure (match a, b with
    | some a, some b => if b = 0 then none else some (Real.sqrt |cov z x * a / b|)
    | _, _ => none)

end

end Cdmir.OlcStat
