import Mathlib.Analysis.SpecialFunctions.Pow.Real
import Mathlib.Analysis.SpecialFunctions.Log.Basic
import Mathlib.Analysis.SpecialFunctions.Trigonometric.DerivHyp
import Mathlib.Analysis.Real.Sqrt

/-! Model of the losses of cdmir/discovery/score_based/entropy_based/entropy_based_discovery/utils.py. They see only the residual
`input - output`, all of its entries at once: `ι` is the set of pairs of a sample and a variable. Real numbers; a residual without
spread (division by zero in torch) is outside the theorems. -/

namespace Cdmir.EntLoss
open BigOperators

variable {ι : Type} [Fintype ι]

/-- utils.py L471, L485, L492, L507, L531: `residual = input - output`. -/
def residual (output input : ι → ℝ) : ι → ℝ := fun i => input i - output i

/-- `torch.mean`. -/
noncomputable def mean (r : ι → ℝ) : ℝ := (∑ i, r i) / Fintype.card ι

/-- `torch.var` (utils.py L472, L500): divided by the number of entries less one. -/
noncomputable def var (r : ι → ℝ) : ℝ := (∑ i, (r i - mean r) ^ 2) / (Fintype.card ι - 1)

/-- `torch.std` (utils.py L473, L486, L493, L508, L532). -/
noncomputable def std (r : ι → ℝ) : ℝ := Real.sqrt (var r)

/-- utils.py L473, L486, L493, L509: the standardised residual. -/
noncomputable def standard (r : ι → ℝ) : ι → ℝ := fun i => (r i - mean r) / std r

/-- utils.py L474-478, L494-498: `k_3`, `k_4`. -/
noncomputable def k3 (x : ι → ℝ) : ℝ := mean (fun i => x i ^ 3) / mean (fun i => x i ^ 2) ^ (3 / 2 : ℝ)
/-- utils.py L478, L498. -/
noncomputable def k4 (x : ι → ℝ) : ℝ := mean (fun i => x i ^ 4) / mean (fun i => x i ^ 2) ^ (4 / 2 : ℝ)

/-- utils.py L470-481: `entropy_loss_high_order`. -/
noncomputable def highOrder (output input : ι → ℝ) : ℝ :=
  let r := residual output input
  let x := standard r
  1 / 2 * Real.log (var r) - 1 / 12 * k3 x ^ 2 - 1 / 48 * k4 x ^ 2

/-- utils.py L484-488: `entropy_loss_G1`. -/
noncomputable def g1 (output input : ι → ℝ) : ℝ :=
  -(mean fun i => Real.log (Real.cosh (standard (residual output input) i))) ^ 2

/-- utils.py L491-502: `entropy_loss_G1_high_order`; the variance is taken after the residual was standardised. -/
noncomputable def g1HighOrder (output input : ι → ℝ) : ℝ :=
  let x := standard (residual output input)
  1 / 2 * Real.log (var x) - 1 / 12 * k3 x ^ 2 - 1 / 48 * k4 x ^ 2 - (mean fun i => Real.log (Real.cosh (x i))) ^ 2

/-- utils.py L514, L521: the constants of `entropy_loss_mentappr`. -/
noncomputable def mentK1 : ℝ := 7412888581800331 / 10 ^ 15
/-- utils.py L521. -/
noncomputable def mentK2 : ℝ := 3366942333606287 / 10 ^ 14
/-- utils.py L521. -/
noncomputable def mentCon : ℝ := 7071067811865476 / 10 ^ 16
/-- utils.py L512. -/
noncomputable def gaussEntropy : ℝ := 14189385332046727 / 10 ^ 16

/-- utils.py L522-523: `negentropy`. -/
noncomputable def negentropy (x : ι → ℝ) : ℝ :=
  mentK2 * (mean (fun i => Real.exp (-(x i ^ 2) / 2)) - mentCon) ^ 2 + mentK1 * (mean fun i => x i * Real.exp (-x i * x i / 2)) ^ 2

/-- utils.py L506-526: `entropy_loss_mentappr`. -/
noncomputable def mentappr (output input : ι → ℝ) : ℝ :=
  let r := residual output input
  gaussEntropy - negentropy (standard r) + Real.log (std r)

/-- utils.py L530-533: `variance_loss`. -/
noncomputable def varianceLoss (output input : ι → ℝ) : ℝ := std (residual output input)

end Cdmir.EntLoss
