import Verif.Model.Py
import Mathlib.Algebra.Field.Rat
import Mathlib.Algebra.Order.Field.Rat
import Mathlib.Data.Fin.Basic
import Mathlib.Data.List.FinRange

/-! Model of `count_accuracy` of cdmir/discovery/score_based/entropy_based/entropy_based_discovery/utils.py L317-377. Entries are
integers. A linear index into a `d` by `d` array is represented by its pair (row, column); `flatnonzero` lists the pairs row by
row. `intersect1d` and `setdiff1d` are given their documented meaning for arrays without repetition. -/

namespace Cdmir.Accuracy

variable {d : Nat}

/-- An array of shape `[d, d]`. -/
abbrev Mat (d : Nat) := Fin d → Fin d → Int

/-- All positions of an array, in storage order. -/
def positions (d : Nat) : List (Fin d × Fin d) := (List.finRange d).flatMap fun i => (List.finRange d).map fun j => (i, j)

/-- `np.flatnonzero` of a mask (L352-355, L373-374). -/
def flat (mask : Fin d → Fin d → Bool) : List (Fin d × Fin d) := (positions d).filter fun q => mask q.1 q.2

/-- `np.intersect1d(a, b, assume_unique=True)` (L358, L360, L367). -/
def inter (a b : List (Fin d × Fin d)) : List (Fin d × Fin d) := a.filter fun q => decide (q ∈ b)

/-- `np.setdiff1d(a, b, assume_unique=True)` (L363, L364, L366, L375, L376). -/
def diff (a b : List (Fin d × Fin d)) : List (Fin d × Fin d) := a.filter fun q => decide (q ∉ b)

/-- `(mask).any()`. -/
def anyAt (mask : Fin d → Fin d → Bool) : Bool := (positions d).any fun q => mask q.1 q.2

/-- `np.tril(B + B.T)` as a mask (L373-374). -/
def lower (B : Mat d) (i j : Fin d) : Bool := decide (j ≤ i ∧ B i j + B j i ≠ 0)

/-- The dictionary returned (L378). -/
structure Result where
  fdr : Rat
  tpr : Rat
  fpr : Rat
  shd : Nat
  nnz : Nat
  deriving DecidableEq

/-- utils.py L336-346: the checks of `B_est`. `isDag` is igraph's test on the graph of the nonzero entries. -/
def check (isDag : Mat d → Bool) (est : Mat d) : Except Err Unit :=
  if anyAt fun i j => decide (est i j = -1) then
    if anyAt fun i j => decide (¬(est i j = 0 ∨ est i j = 1 ∨ est i j = -1)) then throw .value
    else if anyAt fun i j => decide (est i j = -1 ∧ est j i = -1) then throw .value
    else pure ()
  else
    if anyAt fun i j => decide (¬(est i j = 0 ∨ est i j = 1)) then throw .value
    else if ¬ isDag est then throw .value
    else pure ()

/-- utils.py L317-378: `count_accuracy`. -/
def countAccuracy (isDag : Mat d → Bool) (true_ est : Mat d) : Except Err Result := do
  check isDag est
  let predUnd := flat fun i j => decide (est i j = -1)
  let pred := flat fun i j => decide (est i j = 1)
  let cond := flat fun i j => decide (true_ i j ≠ 0)
  let condReversed := flat fun i j => decide (true_ j i ≠ 0)
  let condSkeleton := cond ++ condReversed
  let truePos := inter pred cond ++ inter predUnd condSkeleton
  let falsePos := diff pred condSkeleton ++ diff predUnd condSkeleton
  let extra := diff pred cond
  let reverse := inter extra condReversed
  let predSize := pred.length + predUnd.length
  let condNegSize : Rat := 1 / 2 * d * (d - 1) - cond.length
  let fdr : Rat := (reverse.length + falsePos.length : Nat) / (max predSize 1 : Nat)
  let tpr : Rat := truePos.length / (max cond.length 1 : Nat)
  let fpr : Rat := (reverse.length + falsePos.length : Nat) / max condNegSize 1
  let predLower := flat (lower est)
  let condLower := flat (lower true_)
  let extraLower := diff predLower condLower
  let missingLower := diff condLower predLower
  let shd := extraLower.length + missingLower.length + reverse.length
  pure ⟨fdr, tpr, fpr, shd, predSize⟩

end Cdmir.Accuracy
