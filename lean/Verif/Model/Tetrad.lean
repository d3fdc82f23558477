import Verif.Model.Py
import Mathlib.Analysis.SpecialFunctions.Pow.Real
import Mathlib.LinearAlgebra.Matrix.Determinant.Basic
import Mathlib.Algebra.BigOperators.Fin

/-! Model of VanishedTest.py and TetradMethod.py in cdmir/discovery/funtional_based/LearningHierarchicalStructure. Numbers are real numbers; the
distribution function of the normal distribution is a parameter. -/

namespace Cdmir.Tetrad
open BigOperators

noncomputable section

variable {n : Nat}

/-- `np.mean` of a column. -/
def mean (x : Fin n → ℝ) : ℝ := (∑ i, x i) / n

/-- `np.cov(x, y)[0][1]`, for at least two rows. -/
def cov (x y : Fin n → ℝ) : ℝ := (∑ i, (x i - mean x) * (y i - mean y)) / ((n : ℝ) - 1)

/-- VanishedTest.py L41-46: `TAUijkl`. -/
def tau (i j k l : Fin n → ℝ) : ℝ := cov i k * cov j l - cov i l * cov j k

/-- VanishedTest.py L59: `data.cov()`. -/
def covMat (a : Fin 4 → Fin n → ℝ) : Matrix (Fin 4) (Fin 4) ℝ := Matrix.of fun p q => cov (a p) (a q)

/-- VanishedTest.py L57-66: `var`. -/
def wvar (a0 a1 a2 a3 : Fin n → ℝ) : ℝ :=
  let p1 := cov a0 a0 * cov a3 a3 - cov a0 a3 * cov a0 a3
  let p2 := cov a1 a1 * cov a2 a2 - cov a1 a2 * cov a1 a2
  let product3 := ((n : ℝ) + 1) / (((n : ℝ) - 1) * ((n : ℝ) - 2)) * p1 * p2
  product3 - (covMat ![a0, a1, a2, a3]).det / ((n : ℝ) - 2)

/-- VanishedTest.py L36-54: `wishartEvalTetradDifference`. Line 63 raises `ZeroDivisionError` for one or two rows; without rows everything is NaN
(`none`). If the standard deviation is 0 the ratio is infinite, and the p-value 0, or NaN if the difference is 0 too. -/
def pvalue (Φ : ℝ → ℝ) (i j k l : Fin n → ℝ) : Except Err (Option ℝ) :=
  if n = 0 then pure none
  else if n ≤ 2 then throw .exception
  else if wvar i j k l = 0 then pure (if tau i j k l = 0 then none else some 0)
  else pure (some (2 * Φ (-|tau i j k l / Real.sqrt (abs (wvar i j k l))|)))

/-- VanishedTest.py L19-24: `vanishes`. -/
def vanishes (Φ : ℝ → ℝ) (alpha : ℝ) (x y z w : Fin n → ℝ) : Except Err Bool := do
  match ← pvalue Φ x y z w with
  | some p => pure (decide (alpha < p))
  | none => pure false

end

section
variable {V : Type} [DecidableEq V]

/-- The first `False` ends the loop with `False`, an exception ends it with the exception. -/
def allE {β : Type} (f : β → Except Err Bool) : List β → Except Err Bool
  | [] => pure true
  | x :: l => do if ← f x then allE f l else pure false

/-- The first `True` ends the loop with `True`. -/
def anyE {β : Type} (f : β → Except Err Bool) : List β → Except Err Bool
  | [] => pure false
  | x :: l => do if ← f x then pure true else anyE f l

/-- TetradMethod.py L33-54: `CheckCausalCluster`. `cols` are the columns of the data, `van` is `VT.vanishes` of four columns, `order` the order in
which the set `indexs` is read (`list(indexs)`; it is read several times, each time in the same order). -/
def checkCausalCluster (van : V → V → V → V → Except Err Bool) (order : List V → List V) (cols C : List V) : Except Err Bool :=
  let rest := order (cols.filter fun v => v ∉ C)
  if rest.length < 2 then pure false
  else allE (fun s => allE (fun t => van s.1 s.2 t.1 t.2) (pairs rest)) (pairs C)

/-- TetradMethod.py L73-89: `JudgePureCluster`; `IndexError` if the cluster has fewer than two elements. -/
def judgePureCluster (van : V → V → V → V → Except Err Bool) (order : List V → List V) (cols C : List V) : Except Err Bool :=
  match C with
  | i :: j :: _ => anyE (fun t => van i t.1 j t.2) (pairs (order (cols.filter fun v => v ∉ C)))
  | _ => throw .index

end

end Cdmir.Tetrad
