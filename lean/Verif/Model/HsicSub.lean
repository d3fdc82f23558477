import Verif.Model.HsicTest
import Verif.Model.KernelTest

/-! Model of the rest of HSICTestObject.py (cdmir/discovery/funtional_based/LearningHierarchicalStructure/indTest): the statistics that
take one column of the first sample at a time, and the features from an inducing set. -/

namespace Cdmir.HsicTest

open Finset KTest

noncomputable section

variable {m d : Nat}

/-- `data_x[:, [dd]]`: HSICTestObject.py L102, L115. -/
def column (X : Data m d) (k : Fin d) : Data m 1 := fun i _ => X i k

/-- `sum(stats_value) / float(dx)`: HSICTestObject.py L104, L120. `sum` is the built-in, so that the quotient for no column is `0 / 0.0`, which
raises `ZeroDivisionError` (`Err.exception`). -/
def meanOver (stat : Fin d → Option ℝ) : Except Err (Option ℝ) :=
  if d = 0 then throw .exception
  else pure (do
    let l ← allSome ((List.finRange d).map stat)
    pure (l.sum / d))

/-- HSICTestObject.py L94-105: `SubdCor_HSIC_statistic`. `kx` computes the kernel matrix of a column (L202-211; under the median rule the width is
that of the column), `Ky` is the kernel matrix of `data_y`, computed anew for each column. -/
def subDCor (unbiased : Bool) (kx : Data m 1 → Mat m) (Ky : Mat m) (X : Data m d) : Except Err (Option ℝ) :=
  meanOver fun k => dCor unbiased (kx (column X k)) Ky

/-- HSICTestObject.py L107-121: `SubHSIC_statistic`. -/
def subHsic (unbiased : Bool) (kx : Data m 1 → Mat m) (Ky : Mat m) (X : Data m d) : Except Err (Option ℝ) :=
  meanOver fun k => if unbiased then (uStat (kx (column X k)) Ky).1 else some (vStat (kx (column X k)) Ky)

/-- `Kzz + np.eye(...) * 10 ** (-6)`: HSICTestObject.py L281, L286. -/
def ridged {k : Nat} (Kzz : Mat k) : Mat k := Kzz + (1 / 10 ^ 6 : ℝ) • 1

/-- HSICTestObject.py L278-282, L283-287: the features of one sample; `invRoot` is `inv(sqrtm(...))`. -/
def inducedFeatures {ρ : Type} {k : Nat} (invRoot : Mat k → Mat k) (ker : ρ → ρ → ℝ) (x : Fin m → ρ) (z : Fin k → ρ) : Matrix (Fin m) (Fin k) ℝ :=
  Matrix.of (fun i j => ker (x i) (z j)) * invRoot (ridged (Matrix.of fun i j => ker (z i) (z j)))

/-- HSICTestObject.py L257-288: `compute_induced_kernel_matrix_on_data`. `gen` is the data generator if there is one, `idx` the drawn rows (L264).
Lines 269-270 compute a selection of rows and drop it, so both inducing sets have the size of the greater. The width of the kernels under the
median rule (L272-277) is part of `kx` and `ky`. -/
def induced {ρ σ : Type} (invRoot : (k : Nat) → Mat k → Mat k) (kx : ρ → ρ → ℝ) (ky : σ → σ → ℝ) (nx ny : Nat)
    (gen : Option ((k : Nat) → (Fin k → ρ) × (Fin k → σ))) (idx : Fin (max nx ny) → Fin m) (x : Fin m → ρ) (y : Fin m → σ) :
    Matrix (Fin m) (Fin (max nx ny)) ℝ × Matrix (Fin m) (Fin (max nx ny)) ℝ :=
  let z := match gen with
    | none => x ∘ idx
    | some g => (g (max nx ny)).1
  let w := match gen with
    | none => y ∘ idx
    | some g => (g (max nx ny)).2
  (inducedFeatures (invRoot _) kx x z, inducedFeatures (invRoot _) ky y w)

end
end Cdmir.HsicTest
