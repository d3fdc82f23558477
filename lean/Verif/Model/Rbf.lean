import Verif.Model.KernelTest
import Verif.Model.Py

/-! Model of `kernel` and `dist2` of cdmir/discovery/score_based/greedy_equivalence_search.py (L15-24, L330-357) and of
cdmir/utils/local_score/score_utils.py (L9-18, L21-47). The two files differ in one sign: the first multiplies the data by `@`, the second by `*`,
which is the product of matrices only if the data is an `np.matrix`; for plain arrays it multiplies entry by entry.

Numbers are real numbers and `exp` is the true one; NaN is `none`. -/

namespace Cdmir.Rbf
open BigOperators

noncomputable section

/-- A numpy array with two axes; `f` counts only below the two lengths. -/
structure Arr where
  r : ℕ
  c : ℕ
  f : ℕ → ℕ → ℝ

/-- `a.T`. -/
def Arr.T (a : Arr) : Arr := ⟨a.c, a.r, fun i j => a.f j i⟩

/-- The length of an axis after numpy's broadcasting: equal lengths, or one of them is 1. -/
def bdim (a b : ℕ) : Except Err ℕ := if a = b then .ok a else if a = 1 then .ok b else if b = 1 then .ok a else .error .value

/-- The position that is read along an axis of length `a`. -/
def bpos (a i : ℕ) : ℕ := if a = 1 then 0 else i

/-- An operation on two arrays, entry by entry, with broadcasting. -/
def ewise (op : ℝ → ℝ → ℝ) (a b : Arr) : Except Err Arr := do
  let r ← bdim a.r b.r
  let c ← bdim a.c b.c
  pure ⟨r, c, fun i j => op (a.f (bpos a.r i) (bpos a.c j)) (b.f (bpos b.r i) (bpos b.c j))⟩

/-- `a @ b`, and `a * b` of two `np.matrix`. -/
def matmul (a b : Arr) : Except Err Arr :=
  if a.c = b.r then .ok ⟨a.r, b.c, fun i j => ∑ k ∈ Finset.range a.c, a.f i k * b.f k j⟩ else .error .value

/-- `np.sum(np.multiply(x, x).T, axis=0)`: greedy_equivalence_search.py L350, score_utils.py L41. -/
def sq (x : Arr) (i : ℕ) : ℝ := ∑ k ∈ Finset.range x.c, x.f i k * x.f i k

/-- greedy_equivalence_search.py L330-357 with `mul = matmul`; score_utils.py L21-47 with `mul = matmul` for `np.matrix` and `mul = ewise (· * ·)` for
plain arrays. The first two terms (L350-351, L41-42) have the entry `sq x i + sq c j` at `i`, `j`. -/
def dist2 (mul : Arr → Arr → Except Err Arr) (x c : Arr) : Except Err Arr := do
  if x.c ≠ c.c then throw .exception
  let p ← mul x c.T
  let n2 ← ewise (· - ·) ⟨x.r, c.r, fun i j => sq x i + sq c j⟩ ⟨p.r, p.c, fun i j => 2 * p.f i j⟩
  pure ⟨n2.r, n2.c, fun i j => if n2.f i j < 0 then 0 else n2.f i j⟩

/-- `n2[np.where(np.tril(n2) > 0)]`: greedy_equivalence_search.py L19, score_utils.py L13. -/
def lower (n2 : Arr) : List ℝ :=
  ((List.finRange n2.r).flatMap fun i : Fin n2.r => (List.finRange n2.c).map fun j : Fin n2.c => if (j : ℕ) ≤ i then n2.f i j else 0).filter fun x => decide (0 < x)

/-- The argument `theta`: a list, which the function may change, or a tuple. The first entry may be NaN. -/
structure Theta where
  isTuple : Bool
  t0 : Option ℝ
  t1 : ℝ

/-- greedy_equivalence_search.py L15-24, score_utils.py L9-18: `kernel`. The kernel matrix and one over the first entry of `theta` (`none` if they are
NaN), and `theta` as it is after the call. Assignment to an entry of a tuple raises `TypeError`. -/
def kernel (mul : Arr → Arr → Except Err Arr) (x xKern : Arr) (theta : Theta) : Except Err (Option (Arr × ℝ) × Theta) := do
  let n2 ← dist2 mul x xKern
  let theta ← if theta.t0 = some 0 then
      (if theta.isTuple then throw .type else pure { theta with t0 := (KTest.median (lower n2)).map fun m => 2 / m })
    else pure theta
  pure (theta.t0.map fun t => (⟨n2.r, n2.c, fun i j => theta.t1 * Real.exp (-n2.f i j * (t / 2))⟩, 1 / t), theta)

end

end Cdmir.Rbf
