import Verif.Model.Py
import Mathlib.LinearAlgebra.Matrix.NonsingularInverse
import Mathlib.Algebra.BigOperators.Fin
import Mathlib.Analysis.SpecialFunctions.Log.Basic

/-! Model of the BIC and BDeu local scores of cdmir/utils/local_score. The data enter through `corrcoef` (BIC) and as a table of
integers (BDeu). Floats are reals. -/

namespace Cdmir.LocalScore
open BigOperators

section BIC
variable {n : Nat}

/-- bic_score.py L29: `cov[ix_([i], parent_i)]`. -/
def rowAt (C : Matrix (Fin n) (Fin n) ℝ) (i : Fin n) (pa : List (Fin n)) : Matrix Unit (Fin pa.length) ℝ := fun _ k => C i (pa.get k)

/-- bic_score.py L30: `cov[ix_(parent_i, parent_i)]`. -/
def blockAt (C : Matrix (Fin n) (Fin n) ℝ) (pa : List (Fin n)) : Matrix (Fin pa.length) (Fin pa.length) ℝ :=
  fun k l => C (pa.get k) (pa.get l)

open Classical in
/-- bic_score.py L23-33: `_score_function`; `C` is the matrix `corrcoef(data.T)` (L16), `N` the number of samples (L17). `inv` of a
singular matrix raises. The logarithm of a number that is not positive (minus infinity or NaN in numpy) is not modelled. -/
noncomputable def bic (C : Matrix (Fin n) (Fin n) ℝ) (N : Nat) (lambda : ℝ) (i : Fin n) (pa : List (Fin n)) : Except Err ℝ :=
  if pa.length = 0 then pure (N * Real.log (C i i))
  else
    let yX := rowAt C i pa
    let XX := blockAt C pa
    if XX.det = 0 then throw .value
    else
      let H := Real.log (C i i - (yX * XX⁻¹ * yX.transpose) () ())
      pure (-(N * H + Real.log N * pa.length * lambda))

end BIC

section BDeu
variable {K : Type} [Field K] {N n : Nat}

/-- bdeu_score.py L24 (`r_i_map`): the number of different values in column `i`. -/
def levels (data : Fin N → Fin n → Int) (i : Fin n) : Nat := ((List.finRange N).map fun t => data t i).dedup.length

/-- bdeu_score.py L37-39: `q_i`. -/
def cells (data : Fin N → Fin n → Int) (pa : List (Fin n)) : Nat := (pa.map (levels data)).prod

/-- bdeu_score.py L42-46: the groups of rows with the same values in the columns `pa`: keys in the order of first occurrence. -/
def groups (data : Fin N → Fin n → Int) (pa : List (Fin n)) (rows : List (Fin N)) : List (List Int) :=
  (rows.map fun t => pa.map (data t)).dedup

/-- bdeu_score.py L46: the rows of a group. -/
def rowsOf (data : Fin N → Fin n → Int) (pa : List (Fin n)) (rows : List (Fin N)) (key : List Int) : List (Fin N) :=
  rows.filter fun t => pa.map (data t) = key

/-- bdeu_score.py L55-70: the value computed from the groups. `alpha` is `sample_prior`, `s` is `structure_prior`; `log` and
`lgamma` are parameters; `vm` is one less than the number of rows (L57). -/
def bdeuValue (log lgamma : K → K) (alpha s : K) (data : Fin N → Fin n → Int) (i : Fin n) (pa : List (Fin n)) : K :=
  let q : K := (cells data pa : Nat)
  let r : K := (levels data i : Nat)
  let vm : K := (N : K) - 1
  let all := List.finRange N
  ((pa.length : Nat) : K) * log (s / vm) + (vm - ((pa.length : Nat) : K)) * log (1 - s / vm) +
  ((groups data pa all).map fun key =>
    let rows := rowsOf data pa all key
    lgamma (alpha / q) - lgamma (((rows.length : Nat) : K) + alpha / q) +
    ((groups data [i] rows).map fun k =>
      lgamma ((((rowsOf data [i] rows k).length : Nat) : K) + alpha / (r * q)) - lgamma (alpha / (r * q))).sum).sum

/-- bdeu_score.py L26-72: `_score_function`. `groupby` of an empty list of names (L45) raises a `ValueError` when there are rows. -/
def bdeu (log lgamma : K → K) (alpha s : K) (data : Fin N → Fin n → Int) (i : Fin n) (pa : List (Fin n)) : Except Err K :=
  if pa.length = 0 ∧ N ≠ 0 then throw .value else pure (bdeuValue log lgamma alpha s data i pa)

end BDeu
end Cdmir.LocalScore
