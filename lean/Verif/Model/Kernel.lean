import Mathlib.Data.Matrix.Mul
import Mathlib.Algebra.BigOperators.Field
import Mathlib.Algebra.Field.Rat
import Mathlib.Algebra.Order.Field.Rat

/-! Model of `BaseKernel.center_kernel_matrix` (cdmir/utils/kernel/_base.py). Floats are elements of any field. -/

namespace Cdmir
open BigOperators

/-- kernel/_base.py L31: `K.sum(axis=0)`. -/
def colSums {F : Type} [AddCommMonoid F] {n m : Nat} (K : Matrix (Fin n) (Fin m) F) (j : Fin m) : F := ∑ i, K i j

/-- kernel/_base.py L32: `K_colsums.sum()`. -/
def vecSum {F : Type} [AddCommMonoid F] {n : Nat} (v : Fin n → F) : F := ∑ j, v j

/-- kernel/_base.py L28-33: `center_kernel_matrix` for a square matrix (kernel matrices of a sample with itself;
other shapes are not modelled). -/
def centerKernelMatrix {F : Type} [Field F] {n : Nat} (K : Matrix (Fin n) (Fin n) F) : Matrix (Fin n) (Fin n) F :=
  let cs := colSums K
  let all := vecSum cs
  fun i j => K i j - (cs j + cs i) / n + all / (n : F) ^ 2

end Cdmir
