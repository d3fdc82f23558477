import Verif.Model.KernelTest
import Verif.Model.Py
import Mathlib.Analysis.SpecialFunctions.Log.Basic
import Mathlib.Analysis.Real.Pi.Bounds
import Mathlib.LinearAlgebra.Matrix.NonsingularInverse
import Mathlib.Data.Fintype.Card

/-!
Model of the cross-validated likelihood scores: cdmir/utils/local_score/cross_validated_base.py and the functions `kernel`,
`dist2` and `pdinv` of cdmir/utils/local_score/score_utils.py.

Numbers are real numbers. `pdinv` is the inverse of a matrix. The sum of the logarithms of the diagonal of the Cholesky
factor of `B` is half the logarithm of the determinant of `B`; the model uses the latter. Where numpy would go on with NaN
(the median of no numbers) the Cholesky factorisation and the singular value decomposition of `pdinv` both refuse; the
model gives an error at once.
-/

namespace Cdmir.CV
open KTest

/-- The rows `a` up to `b - 1`, as in `Kx[a:b, ...]` and `np.arange(a, b)`: cross_validated_base.py L93-L118, L160-L174. -/
def rowsIn (T a b : ℕ) : Finset (Fin T) := Finset.univ.filter fun r => a ≤ r.1 ∧ r.1 < b

/-- One fold: the rows tested, the rows trained on, and `nv`. -/
structure Fold (T : ℕ) where
  te : Finset (Fin T)
  tr : Finset (Fin T)
  nv : ℕ

/-- The rows of fold `kk`: cross_validated_base.py L91-L119 and L158-L175 (L276-L304 and L339-L356 in `MultiCVScore`). The
three `if` are tried one after the other, a later one overwrites an earlier one; `n0 = floor(T / k_fold)` (L45, L237). -/
def fold (T k kk : ℕ) : Fold T :=
  let n0 := T / k
  let f : Fold T := if kk = 0 then ⟨rowsIn T 0 n0, rowsIn T n0 T, n0⟩ else ⟨∅, ∅, 0⟩
  let f := if kk = k - 1 then ⟨rowsIn T (kk * n0) T, rowsIn T 0 (kk * n0), T - kk * n0⟩ else f
  if kk < k - 1 ∧ 0 < kk then
    ⟨rowsIn T (kk * n0) ((kk + 1) * n0), rowsIn T 0 (kk * n0) ∪ rowsIn T ((kk + 1) * n0) T, n0⟩
  else f

/-- `n1 = T - nv`: cross_validated_base.py L121, L177. -/
def Fold.n1 {T : ℕ} (f : Fold T) : ℕ := T - f.nv

noncomputable section

variable {T d p : ℕ}

/-- `dist2(x, x)`: score_utils.py L21-L47. -/
def dist2 (X : Data T d) (i j : Fin T) : ℝ := if gramDist X i j < 0 then 0 else gramDist X i j

/-- `kernel(x, x, (theta, 1))`: score_utils.py L9-L18. The branch of L12 is left out: `theta` is one over a positive number. -/
def rbf (X : Data T d) (theta : ℝ) : Matrix (Fin T) (Fin T) ℝ := fun i j => 1 * Real.exp (-dist2 X i j * (theta / 2))

/-- The kernel matrix of one variable before centring: cross_validated_base.py L52-L62, L76-L85, L139-L149 with `c = 2`,
`q = 1`; L242-L252, L261-L270, L324-L334 with `c = 3`, `q` the number of columns; marginal_base.py L27-L37 with `c = 2.5`,
`q = 1`. NaN if no two rows differ. -/
def kern (c q : ℝ) (X : Data T d) : Option (Matrix (Fin T) (Fin T) ℝ) :=
  (median (upper (gramDist X))).map fun m =>
    let width := Real.sqrt (1 / 2 * m) * c
    rbf X (1 / (width ^ 2 * q))

/-- `gamma = 0.01`: cross_validated_base.py L46, L238. -/
def gam : ℝ := 1 / 100

/-- A block of a matrix: `K[np.ix_(a, b)]` and slices, cross_validated_base.py L93-L118, L160-L174. -/
def block (K : Matrix (Fin T) (Fin T) ℝ) (a b : Finset (Fin T)) : Matrix a b ℝ := K.submatrix (fun r => r.1) (fun r => r.1)

/-- `B` without parents: cross_validated_base.py L180, L361. -/
def bNone (K : Matrix (Fin T) (Fin T) ℝ) (f : Fold T) : Matrix f.tr f.tr ℝ := (1 / (gam * f.n1)) • block K f.tr f.tr + 1

/-- `A` without parents: cross_validated_base.py L178-L179, L359-L360. -/
def aNone (K : Matrix (Fin T) (Fin T) ℝ) (f : Fold T) : Matrix f.te f.te ℝ :=
  (1 / gam) • (block K f.te f.te -
    (1 / (gam * f.n1)) • ((block K f.tr f.te).transpose * (1 + (1 / (gam * f.n1)) • block K f.tr f.tr)⁻¹ * block K f.tr f.te))

/-- `tmp1`: cross_validated_base.py L122, L307. -/
def tmp1 (Kp : Matrix (Fin T) (Fin T) ℝ) (lam : ℝ) (f : Fold T) : Matrix f.tr f.tr ℝ :=
  (block Kp f.tr f.tr + ((f.n1 : ℝ) * lam) • 1)⁻¹

/-- `tmp2`: cross_validated_base.py L123, L308. -/
def tmp2 (K Kp : Matrix (Fin T) (Fin T) ℝ) (lam : ℝ) (f : Fold T) : Matrix f.tr f.tr ℝ :=
  tmp1 Kp lam f * block K f.tr f.tr * tmp1 Kp lam f

/-- `tmp3`: cross_validated_base.py L124, L309. -/
def tmp3 (K Kp : Matrix (Fin T) (Fin T) ℝ) (lam : ℝ) (f : Fold T) : Matrix f.tr f.tr ℝ :=
  tmp1 Kp lam f * (1 + ((f.n1 : ℝ) * lam ^ 2 / gam) • tmp2 K Kp lam f)⁻¹ * tmp1 Kp lam f

/-- `B` with parents: cross_validated_base.py L130, L315. -/
def bPar (K Kp : Matrix (Fin T) (Fin T) ℝ) (lam : ℝ) (f : Fold T) : Matrix f.tr f.tr ℝ :=
  ((f.n1 : ℝ) * lam ^ 2 / gam) • tmp2 K Kp lam f + 1

/-- `A` with parents: cross_validated_base.py L125-L128, L310-L313. -/
def aPar (K Kp : Matrix (Fin T) (Fin T) ℝ) (lam : ℝ) (f : Fold T) : Matrix f.te f.te ℝ :=
  let c : ℝ := (f.n1 : ℝ) * lam ^ 2 / gam
  let W := tmp1 Kp lam f
  let V := tmp3 K Kp lam f
  let S := block K f.tr f.tr
  let U := block K f.tr f.te
  let P := block Kp f.tr f.te
  (1 / gam) • (block K f.te f.te + P.transpose * tmp2 K Kp lam f * P - (2 : ℝ) • (U.transpose * W * P) -
    c • (U.transpose * V * U) - c • (P.transpose * W * S * V * S * W * P) + (2 * c) • (U.transpose * V * S * W * P))

/-- What one fold adds to `CV`: cross_validated_base.py L134, L185, L319, L366. -/
def term {f : Fold T} (B : Matrix f.tr f.tr ℝ) (A : Matrix f.te f.te ℝ) : ℝ :=
  ((f.nv : ℝ) * f.nv * Real.log (2 * Real.pi) + f.nv * (1 / 2 * Real.log B.det) + A.trace) / 2

/-- The score without parents from the centred kernel matrix: cross_validated_base.py L157-L190, L338-L371. `1 / (gamma * n1)`
raises if a fold leaves no row to train on. -/
def scoreNone (K : Matrix (Fin T) (Fin T) ℝ) (k : ℕ) : Except Err ℝ :=
  if ∃ kk < k, (fold T k kk).n1 = 0 then .error .exception
  else .ok (-((∑ kk ∈ Finset.range k, term (bNone K (fold T k kk)) (aNone K (fold T k kk))) / k))

/-- The score with parents from the centred kernel matrices: cross_validated_base.py L90-L136, L189, L275-L321, L370. -/
def scorePar (K Kp : Matrix (Fin T) (Fin T) ℝ) (lam : ℝ) (k : ℕ) : ℝ :=
  -((∑ kk ∈ Finset.range k, term (bPar K Kp lam (fold T k kk)) (aPar K Kp lam (fold T k kk))) / k)

/-- The product of the kernel matrices of the parents: cross_validated_base.py L73-L85, L257-L270. -/
def kernPar : List (Option (Matrix (Fin T) (Fin T) ℝ)) → Option (Matrix (Fin T) (Fin T) ℝ) :=
  List.foldl (fun acc K => acc.bind fun A => K.map fun B => Matrix.of fun i j => A i j * B i j) (some (Matrix.of fun _ _ => 1))

/-- One column of the data, `self.data[:, i]`: cross_validated_base.py L44, L79. -/
def col (data : Data T p) (i : Fin p) : Data T 1 := fun r _ => data r i

/-- From the kernel matrices to the score. `floor(T / k_fold)` raises for no folds (L45). -/
def scoreOf (Kx : Option (Matrix (Fin T) (Fin T) ℝ)) (Kpa : List (Option (Matrix (Fin T) (Fin T) ℝ))) (lam : ℝ) (k : ℕ) :
    Except Err ℝ :=
  if k = 0 then .error .exception
  else
    match Kx with
    | none => .error .exception
    | some Kx =>
      match Kpa with
      | [] => scoreNone (center Kx) k
      | Ks =>
        match kernPar Ks with
        | none => .error .exception
        | some Kp => .ok (scorePar (center Kx) (center Kp) lam k)

/-- `GeneralCVScore._score_function`: cross_validated_base.py L29-L190. -/
def generalCV (data : Data T p) (lam : ℝ) (k : ℕ) (i : Fin p) (pa : List (Fin p)) : Except Err ℝ :=
  scoreOf (kern 2 1 (col data i)) (pa.map fun j => kern 2 1 (col data j)) lam k

/-- `MultiCVScore._score_function`: cross_validated_base.py L216-L371. `vars v` are the columns of variable `v`
(`self.data[:, self.d_label[v]]`), `dim v` how many. -/
def multiCV {V : Type} {dim : V → ℕ} (vars : (v : V) → Data T (dim v)) (lam : ℝ) (k : ℕ) (i : V) (pa : List V) :
    Except Err ℝ :=
  scoreOf (kern 3 (dim i) (vars i)) (pa.map fun j => kern 3 (dim j) (vars j)) lam k

end

end Cdmir.CV
