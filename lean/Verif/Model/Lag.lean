import Verif.Model.Py
import Mathlib.Analysis.Real.Sqrt
import Mathlib.Data.Matrix.Mul
import Mathlib.Algebra.BigOperators.Fin

/-! Model of `generate_lag_transitions` and `_generate_uniform_mat` of cdmir/datasets/utils.py. The matrices numpy draws are given as
a sequence, `np.linalg.cond` and `np.percentile` are parameters, floats are real numbers. -/

namespace Cdmir.Lag
open BigOperators

/-- L86-87 (and L92-93, L106-107): each column is divided by its length. -/
noncomputable def normCols {n : Nat} (A : Matrix (Fin n) (Fin n) ℝ) : Matrix (Fin n) (Fin n) ℝ :=
  Matrix.of fun r i => A r i / Real.sqrt (∑ q, A q i ^ 2)

/-- L89-95: the loop of `_generate_uniform_mat`; `k` counts the matrices drawn so far. The result is the matrix and the new count. -/
noncomputable def uniformLoop {n : Nat} (cond : Matrix (Fin n) (Fin n) ℝ → ℝ) (thresh : ℝ) (draw : Nat → Matrix (Fin n) (Fin n) ℝ) :
    Nat → Nat → Except Err (Matrix (Fin n) (Fin n) ℝ × Nat)
  | 0, _ => throw .fuel
  | fuel + 1, k =>
    let A := normCols (draw k)
    if thresh < cond A then uniformLoop cond thresh draw fuel (k + 1) else pure (A, k + 1)

/-- L112-114: `m` matrices, appended one after the other. -/
noncomputable def lagLoop {n : Nat} (cond : Matrix (Fin n) (Fin n) ℝ → ℝ) (thresh : ℝ) (draw : Nat → Matrix (Fin n) (Fin n) ℝ) (fuel : Nat) :
    Nat → Nat → List (Matrix (Fin n) (Fin n) ℝ) → Except Err (List (Matrix (Fin n) (Fin n) ℝ))
  | 0, _, ts => pure ts
  | m + 1, k, ts => do
    let (B, k') ← uniformLoop cond thresh draw fuel k
    lagLoop cond thresh draw fuel m k' (ts ++ [B])

/-- L98-117: `generate_lag_transitions`. `pre` are the matrices drawn from [1, 2) for the threshold, `draw` those from [-1, 1). -/
noncomputable def lagTransitions {n : Nat} (cond : Matrix (Fin n) (Fin n) ℝ → ℝ) (percentile : List ℝ → ℝ → ℝ) (maxLag : Nat) (acceptPer : ℝ)
    (niter : Nat) (pre draw : Nat → Matrix (Fin n) (Fin n) ℝ) (fuel : Nat) : Except Err (List (Matrix (Fin n) (Fin n) ℝ)) := do
  if ¬0 < n then throw .assertion
  if ¬0 < maxLag then throw .assertion
  let conds := (List.range niter).map fun i => cond (normCols (pre i))
  let thresh := percentile conds acceptPer
  let ts ← lagLoop cond thresh draw fuel maxLag 0 []
  pure ts.reverse

end Cdmir.Lag
