import Verif.Model.Py
import Mathlib.Analysis.Real.Sqrt
import Mathlib.Analysis.SpecialFunctions.Log.Basic
import Mathlib.Data.Fin.Tuple.Sort
import Mathlib.Algebra.BigOperators.Fin

/-! Model of `entropy_loss_knn` (cdmir/discovery/score_based/entropy_based/entropy_based_discovery/utils.py L444-467) over the reals. A number that is
not a number is `none`. -/

namespace Cdmir.Knn
open BigOperators

variable {n d : Nat}

/-- `torch.mean` of a column: utils.py L452. -/
noncomputable def mean (x : Fin n → ℝ) : ℝ := (∑ i, x i) / n

/-- `torch.std` of a column, with `n - 1`: utils.py L453. -/
noncomputable def std (x : Fin n → ℝ) : ℝ := Real.sqrt ((∑ i, (x i - mean x) ^ 2) / ((n : ℝ) - 1))

/-- utils.py L454: the normalised column; for deviation zero, and for a single row, it is not a number. -/
noncomputable def normalise (x : Fin n → ℝ) : Option (Fin n → ℝ) :=
  if std x = 0 ∨ n = 1 then none else some fun i => (x i - mean x) / std x

/-- utils.py L456: a column of `sorted`. -/
noncomputable def sorted (z : Fin n → ℝ) : Fin n → ℝ := z ∘ Tuple.sort z

/-- The row `t` of `sorted`, `none` beyond the end. -/
noncomputable def row (z : Fin d → Option (Fin n → ℝ)) (t : Nat) : Option (Fin d → Option ℝ) :=
  if h : t < n then some fun c => (z c).map fun f => sorted f ⟨t, h⟩ else none

/-- `sorted[t]` for a row that may be beyond the end. -/
noncomputable def getRow (z : Fin d → Option (Fin n → ℝ)) (t : Nat) : Except Err (Fin d → Option ℝ) :=
  match row z t with
  | some r => pure r
  | none => throw .index

/-- `torch.log(torch.pow(a - b, 2) + EPS)`. -/
noncomputable def logSq (eps : ℝ) (a b : Option ℝ) : Option ℝ := Option.map₂ (fun a b => Real.log ((a - b) ^ 2 + eps)) a b

/-- `torch.sum` over the columns: not a number if one is not. -/
noncomputable def total (v : Fin d → Option ℝ) : Option ℝ :=
  (List.finRange d).foldl (fun acc c => Option.map₂ (· + ·) acc (v c)) (some 0)

/-- utils.py L459-466: the term added for row `i` and neighbour `j`. `left.min(right)` is not a number if one of them is not. -/
noncomputable def term (k : Nat) (eps : ℝ) (z : Fin d → Option (Fin n → ℝ)) (i j : Nat) : Except Err (Option ℝ) := do
  if i < k then
    let a ← getRow z i
    let b ← getRow z (i + j)
    pure (total fun c => logSq eps (a c) (b c))
  else if n ≤ i + k then
    let a ← getRow z i
    let b ← getRow z (i - j)
    pure (total fun c => logSq eps (a c) (b c))
  else
    let a ← getRow z i
    let l ← getRow z (i - j)
    let r ← getRow z (i + j)
    pure (total fun c => Option.map₂ min (logSq eps (a c) (l c)) (logSq eps (a c) (r c)))

/-- utils.py L457-466: the loops, for the normalised columns. -/
noncomputable def loop (k : Nat) (eps : ℝ) (z : Fin d → Option (Fin n → ℝ)) : Except Err (Option ℝ) :=
  (List.range n).foldlM (fun acc i => (List.range k).foldlM (fun acc j => do
    let t ← term k eps z i (j + 1)
    pure (Option.map₂ (· + ·) acc t)) acc) (some 0)

/-- utils.py L444-467: `entropy_loss_knn`, for `k` from 0 on. `0. / 0` (L467, `k = 0`) raises a `ZeroDivisionError`. -/
noncomputable def knnLoss (k : Nat) (eps : ℝ) (output input : Fin n → Fin d → ℝ) : Except Err (Option ℝ) := do
  let loss ← loop k eps fun c => normalise fun i => input i c - output i c
  if k = 0 then throw .exception else pure (loss.map (· / k))

end Cdmir.Knn
