import Verif.Model.Metrics
import Mathlib.Algebra.Order.Group.Unbundled.Abs
import Mathlib.Data.List.ProdSigma

/-! Model of `get_performance` (cdmir/utils/metrics/graph_evaluation.py L78-94). Entries of matrices are rational numbers, as finite floats are; NaN and
infinite entries, matrices that are not square and arrays of type `bool` are not modelled. sklearn's scores are modelled from its documentation
and the checks of their arguments that it makes (`_check_targets` and `_check_set_wise_labels` of sklearn/metrics/_classification.py, with
`average='binary'` and `pos_label=1`). -/

namespace Cdmir
namespace Perf
variable {α : Type} [DecidableEq α]

/-- An argument `fitted` or `real` (graph_evaluation.py L78-82): a graph or a square matrix with its number of rows. -/
inductive Arg (α : Type) where
  | graph (g : Graph α)
  | matrix (n : Nat) (M : Nat → Nat → ℚ)

/-- graph_evaluation.py L79-82: a graph is replaced by its `to_numpy()`. -/
def Arg.array : Arg α → Except Err (Nat × (Nat → Nat → ℚ))
  | .graph g => do
    let m ← g.toNumpy
    pure (g.nodeList.length, fun i j => (m i j : ℚ))
  | .matrix n M => pure (n, M)

/-- graph_evaluation.py L85-86: `M - np.diag(np.diag(M))`. -/
def noDiag (M : Nat → Nat → ℚ) : Nat → Nat → ℚ := fun i j => M i j - if i = j then M i j else 0

/-- The places of an `n × n` array in the order of `ravel()` (graph_evaluation.py L88-90). -/
def places (n : Nat) : List (Nat × Nat) := List.range n ×ˢ List.range n

/-- `M.ravel()` (graph_evaluation.py L88-90). -/
def ravel (n : Nat) (M : Nat → Nat → ℚ) : List ℚ := (places n).map fun p => M p.1 p.2

/-- What sklearn checks before it scores (graph_evaluation.py L88-90), each failure a `ValueError`: as many predictions as true values; the true values are
integers (otherwise they count as continuous); at most two labels among both (otherwise multiclass); 1, the positive label, among them unless there
is only one. -/
def checkTargets (t : List ℚ) (e : List Bool) : Except Err Unit :=
  if t.length ≠ e.length then .error .value
  else if t.any (fun q => q.den ≠ 1) then .error .value
  else
    let labels := (t ++ e.map fun b => if b then (1 : ℚ) else 0).dedup
    if 2 < labels.length then .error .value
    else if 1 ∉ labels ∧ 2 ≤ labels.length then .error .value
    else pure ()

/-- The row of the table that is returned (graph_evaluation.py L91-94). -/
structure Row where
  f1 : ℚ
  precision : ℚ
  recall : ℚ
  threshold : ℚ
  deriving DecidableEq, Repr

/-- graph_evaluation.py L78-94: `get_performance`. -/
def getPerformance (fitted real : Arg α) (threshold : ℚ := 0) (dropDiag : Bool := true) : Except Err Row := do
  let f ← fitted.array
  let r ← real.array
  let F : Nat → Nat → ℚ := fun i j => |f.2 i j|
  let F := if dropDiag then noDiag F else F
  let R := if dropDiag then noDiag r.2 else r.2
  let t := ravel r.1 R
  let e := (ravel f.1 F).map fun x => decide (threshold < x)
  checkTargets t e
  let y := t.map fun q => decide (q = 1)
  pure ⟨Graph.f1Score y e, Graph.precisionScore y e, Graph.recallScore y e, threshold⟩

end Perf
end Cdmir
