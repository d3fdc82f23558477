import Verif.Model.Py
import Mathlib.Algebra.BigOperators.Fin
import Mathlib.Algebra.Field.Rat
import Mathlib.Algebra.Order.Field.Rat
import Mathlib.Data.List.FinRange
import Mathlib.Data.List.Permutation

/-! Model of cdmir/discovery/funtional_based/lingam_based/ica_lingam.py. Floats are elements of an ordered field, together with
infinity and NaN where the code divides by zero. FastICA with `pinv`, the Wald test and the linear regression are parameters; so is the
iteration order of sets. -/

namespace Cdmir.Lingam

variable {K : Type} [Field K] [LinearOrder K] {n : Nat}

/-- An array of shape `[n, n]`. -/
abbrev Mat (K : Type) (n : Nat) := Fin n → Fin n → K

/-- ica_lingam.py L14-15: `temp`, one 1 and `n - 1` zeros. For `n = 0` line 15 raises an `IndexError`. -/
def firstUnit (n : Nat) : Except Err (List Int) :=
  match n with
  | 0 => throw .index
  | k + 1 => pure (1 :: List.replicate k 0)

/-- `set(itertools.permutations(l, len(l)))` as a list: the different orders of `l`, in the iteration order `so` of the set. -/
def permSet {β : Type} [DecidableEq β] (so : List (List β) → List (List β)) (l : List β) : List (List β) := so l.permutations'.dedup

/-- ica_lingam.py L13-17: `find_all_P`, a list of arrays (lists of rows). `so1` and `so2` are the iteration orders of the two sets. -/
def findAllP (so1 : List (List Int) → List (List Int)) (so2 : List (List (List Int)) → List (List (List Int))) (n : Nat) :
    Except Err (List (List (List Int))) := do
  let temp ← firstUnit n
  pure (permSet so2 (permSet so1 temp))

/-- `P.dot(W)` for a list of rows. -/
def dot (P : List (List Int)) (W : Mat K n) : Mat K n :=
  fun i j => ((List.finRange n).map fun k => (((P.getD i.val []).getD k.val 0 : Int) : K) * W k j).sum

/-- A float: a number, infinity (only the positive one occurs) or NaN. -/
inductive Flt (K : Type) where
  | fin (x : K)
  | inf
  | nan
  deriving DecidableEq

/-- Addition of floats that are not minus infinity. -/
def Flt.add : Flt K → Flt K → Flt K
  | .nan, _ => .nan
  | _, .nan => .nan
  | .inf, _ => .inf
  | _, .inf => .inf
  | .fin x, .fin y => .fin (x + y)

/-- `abs(1 / x)`. -/
def absInv (x : K) : Flt K := if x = 0 then .inf else .fin |1 / x|

/-- Multiplication by an entry of the identity matrix: 0 times infinity is NaN. -/
def eyeTimes (b : Bool) (x : Flt K) : Flt K :=
  match x with
  | .nan => .nan
  | .inf => if b then .inf else .nan
  | .fin x => if b then .fin x else .fin 0

/-- Python's `sum` over floats. -/
def fsum (l : List (Flt K)) : Flt K := l.foldl Flt.add (.fin 0)

/-- ica_lingam.py L22: `sum(sum(np.eye(n) * abs(1 / A)))`; the inner `sum` adds up the rows. -/
def wScore (A : Mat K n) : Flt K :=
  fsum ((List.finRange n).map fun j => fsum ((List.finRange n).map fun i => eyeTimes (decide (i = j)) (absInv (A i j))))

/-- `x < y` for the comparison inside `argmin` (no NaN). -/
def Flt.lt : Flt K → Flt K → Bool
  | .fin x, .fin y => decide (x < y)
  | .fin _, .inf => true
  | _, _ => false

/-- `np.argmin`: the index of the first NaN if there is one, else of the first smallest value; of an empty list it raises. -/
def argmin (l : List (Flt K)) : Except Err Nat :=
  match l.idxOf? .nan with
  | some k => pure k
  | none =>
    match l with
    | [] => throw .value
    | x :: xs => pure ((xs.zipIdx 1).foldl (fun (b : Flt K × Nat) y => if y.1.lt b.1 then y else b) (x, 0)).2

/-- ica_lingam.py L20-23: `find_W_wave`; `Ps` is `find_all_P(n)`. -/
def findWWave (Ps : List (List (List Int))) (W : Mat K n) : Except Err (Mat K n) := do
  let k ← argmin (Ps.map fun P => wScore (dot P W))
  pure (dot (Ps.getD k []) W)

/-- `np.tri(n)`: ones on and below the diagonal. -/
def tri (i j : Fin n) : K := if j ≤ i then 1 else 0

/-- ica_lingam.py L28: `sum(np.diag((A * A).dot(np.tri(n))))`. -/
def bScore (A : Mat K n) : K :=
  ((List.finRange n).map fun i => ((List.finRange n).map fun k => A i k * A i k * tri k i).sum).sum

/-- ica_lingam.py L26-29: `find_B_wave`. -/
def findBWave (Ps : List (List (List Int))) (B : Mat K n) : Except Err (Mat K n) := do
  let k ← argmin (Ps.map fun P => Flt.fin (bScore (dot P B)))
  pure (dot (Ps.getD k []) B)

/-- ica_lingam.py L174-178: `B_hat`: rows divided by the diagonal (`pinv` of a diagonal matrix inverts the entries that are not 0). -/
def bHat (W : Mat K n) : Mat K n := fun i j => (if i = j then 1 else 0) - (if W i i = 0 then 0 else (W i i)⁻¹) * W i j

/-- ica_lingam.py L183-186: the loops that clear the diagonal and what is above it. -/
def clearUpper (B : Mat K n) : Mat K n := fun x y => if x ≤ y then 0 else B x y

/-- ica_lingam.py L138-143, L189: `wald_prune`; `P` says where the p-value exceeds the level (0.5 in L189, not `wald_alpha`). It changes its argument
`B_wave` in place, so L192 reads the pruned array. -/
def waldPrune (P : Fin n → Fin n → Bool) (B : Mat K n) : Mat K n := fun i j => if P i j then 0 else B i j

/-- ica_lingam.py L191-199: coefficients of the regressions; `reg i S` is the result for target `i` and the columns `S`. -/
def regress (reg : Fin n → List (Fin n) → Fin n → K) (B : Mat K n) : Mat K n :=
  fun i j => if B i j ≠ 0 then reg i ((List.finRange n).filter fun k => B i k ≠ 0) j else B i j

/-- ica_lingam.py L163-203: `fit`, from the unmixing matrix `W` on; `wald W_wave` is the outcome of the test. The coefficients and the
graph. -/
def fit (so1 : List (List Int) → List (List Int)) (so2 : List (List (List Int)) → List (List (List Int)))
    (wald : Mat K n → Fin n → Fin n → Bool) (reg : Fin n → List (Fin n) → Fin n → K) (W : Mat K n) :
    Except Err (Mat K n × Mat Int n) := do
  let Ps ← findAllP so1 so2 n
  let wWave ← findWWave Ps W
  let bWave ← findBWave Ps (bHat wWave)
  let pruned := waldPrune (wald wWave) (clearUpper bWave)
  let coef := regress reg pruned
  pure (coef, fun i j => if coef i j ≠ 0 then 1 else 0)

end Cdmir.Lingam
