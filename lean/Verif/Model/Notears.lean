import Verif.Model.Py
import Mathlib.Data.Matrix.Mul
import Mathlib.LinearAlgebra.Matrix.Trace
import Mathlib.Algebra.BigOperators.Field
import Mathlib.Algebra.Field.Rat
import Mathlib.Algebra.Order.Field.Rat

/-! Model of the gradient-based searches of cdmir/discovery/score_based/entropy_based/entropy_based_discovery (`linear.py`,
`linear_ent.py`, `nonlinear.py`). Floats are elements of a field; `log(1 + exp x)`, the sigmoid and `exp` are parameters; the
optimiser is a parameter. `d` is the number of variables, `n` the sample size. -/

namespace Cdmir.Notears
open BigOperators

section
variable {K : Type} [Field K] {n d : Nat}

/-- Entrywise product, `*` of numpy arrays. -/
def had {m k : Nat} (A B : Matrix (Fin m) (Fin k) K) : Matrix (Fin m) (Fin k) K := fun i j => A i j * B i j

/-- `A.sum()`. -/
def total {m k : Nat} (A : Matrix (Fin m) (Fin k) K) : K := ∑ i, ∑ j, A i j

/-- linear.py L51, linear_ent.py L86, L98, nonlinear.py L58, L136: `eye(d) + A / d`. -/
def stepMat (A : Matrix (Fin d) (Fin d) K) : Matrix (Fin d) (Fin d) K := fun i j => (if i = j then 1 else 0) + A i j / d

/-- linear.py L51-53, linear_ent.py L98-100, nonlinear.py L58-60, L136-138: the constraint. -/
def hOf (A : Matrix (Fin d) (Fin d) K) : K :=
  let M := stepMat A
  let E := M ^ (d - 1)
  total (had E.transpose M) - d

/-- linear_ent.py L83-90: `h_func`, from `A = W * W`. -/
def hTrace (A : Matrix (Fin d) (Fin d) K) : K := (stepMat A ^ d).trace - d

/-- linear.py L46-55: `_h(W)`, value and gradient. -/
def hW (W : Matrix (Fin d) (Fin d) K) : K × Matrix (Fin d) (Fin d) K :=
  let M := stepMat (had W W)
  let E := M ^ (d - 1)
  (total (had E.transpose M) - d, fun i j => E.transpose i j * W i j * 2)

/-- nonlinear.py L53-56 (MLP): `fc1_weight` read as `[j, m1, i]`, squares summed over `m1`, transposed. -/
def mlpA {m : Nat} (fc : Fin d → Fin m → Fin d → K) : Matrix (Fin d) (Fin d) K := fun i j => ∑ l, fc j l i * fc j l i

/-- nonlinear.py L132-134 (Sobolev): `fc1_weight` read as `[j, i, k]`, squares summed over `k`, transposed. -/
def sobolevA {k : Nat} (fc : Fin d → Fin d → Fin k → K) : Matrix (Fin d) (Fin d) K := fun i j => ∑ l, fc j i l * fc j i l

/-- The names linear.py L31-43 accepts. -/
inductive LossType
  | l2 | logistic | poisson | other
  deriving DecidableEq

/-- The elementary functions that numpy and scipy supply (linear.py L36, L37, L39). -/
structure Elem (K : Type) where
  logaddexp0 : K → K
  sigmoid : K → K
  exp : K → K

/-- linear.py L28-44: `_loss(W)`, value and gradient; `none` is the `ValueError`. -/
def loss (el : Elem K) (t : LossType) (X : Matrix (Fin n) (Fin d) K) (W : Matrix (Fin d) (Fin d) K) :
    Option (K × Matrix (Fin d) (Fin d) K) :=
  let M := X * W
  match t with
  | .l2 =>
    let R : Matrix (Fin n) (Fin d) K := fun i j => X i j - M i j
    some (1 / 2 / n * total (had R R), fun i j => -1 / n * (X.transpose * R) i j)
  | .logistic =>
    let L : Matrix (Fin n) (Fin d) K := fun i j => el.logaddexp0 (M i j) - X i j * M i j
    let R : Matrix (Fin n) (Fin d) K := fun i j => el.sigmoid (M i j) - X i j
    some (1 / n * total L, fun i j => 1 / n * (X.transpose * R) i j)
  | .poisson =>
    let S : Matrix (Fin n) (Fin d) K := fun i j => el.exp (M i j)
    let L : Matrix (Fin n) (Fin d) K := fun i j => S i j - X i j * M i j
    let R : Matrix (Fin n) (Fin d) K := fun i j => S i j - X i j
    some (1 / n * total L, fun i j => 1 / n * (X.transpose * R) i j)
  | .other => none

/-- The doubled variables (linear.py L75): the vector `w` of length `2 d^2` as its two halves in matrix shape. -/
abbrev Doubled (K : Type) (d : Nat) := Matrix (Fin d) (Fin d) K × Matrix (Fin d) (Fin d) K

/-- linear.py L57-59: `_adj(w)`. -/
def adj (w : Doubled K d) : Matrix (Fin d) (Fin d) K := fun i j => w.1 i j - w.2 i j

/-- linear.py L61-72: `_func(w)`, value and gradient of the augmented Lagrangian. -/
def func (el : Elem K) (t : LossType) (X : Matrix (Fin n) (Fin d) K) (lambda1 rho alpha : K) (w : Doubled K d) :
    Option (K × Doubled K d) := do
  let W := adj w
  let (loss, gLoss) ← loss el t X W
  let (h, gH) := hW W
  let obj := loss + 1 / 2 * rho * h * h + alpha * h + lambda1 * (total w.1 + total w.2)
  let gSmooth : Matrix (Fin d) (Fin d) K := fun i j => gLoss i j + (rho * h + alpha) * gH i j
  pure (obj, (fun i j => gSmooth i j + lambda1, fun i j => -gSmooth i j + lambda1))

/-- linear.py L77-78: centring of the data for the squared loss. -/
def centre (t : LossType) (X : Matrix (Fin n) (Fin d) K) : Matrix (Fin n) (Fin d) K :=
  if t = .l2 then fun i j => X i j - (∑ l, X l j) / n else X

end

section
variable {K : Type} [Field K] [LinearOrder K] {d : Nat}

/-- The parameters of `notears_linear` (linear.py L10) that matter after the objective is fixed. -/
structure Params (K : Type) where
  maxIter : Nat
  hTol : K
  rhoMax : K
  wThreshold : K

/-- linear.py L75, L89-90: the variables that live across rounds; `h = none` is `np.inf`. -/
structure State (K : Type) (d : Nat) where
  w : Doubled K d
  rho : K
  alpha : K
  h : Option K

/-- linear.py L84: `h_new > 0.25 * h`. -/
def slow (h : Option K) (hNew : K) : Bool :=
  match h with
  | none => false
  | some h => decide (hNew > 1 / 4 * h)

/-- linear.py L80-88: the inner loop. `minim rho alpha w` is `sopt.minimize(_func, w, ...)`, whose objective depends on `rho`
and `alpha`; `new` is `w_new, h_new`, `none` for `None, None`. The first argument bounds the number of passes. -/
def inner (minim : K → K → Doubled K d → Doubled K d) (rhoMax alpha : K) (h : Option K) (w : Doubled K d) :
    Nat → K → Option (Doubled K d × K) → Except Err (K × Option (Doubled K d × K))
  | 0, rho, new => if rho < rhoMax then throw .fuel else pure (rho, new)
  | fuel + 1, rho, new =>
    if rho < rhoMax then
      let wNew := minim rho alpha w
      let hNew := (hW (adj wNew)).1
      if slow h hNew then inner minim rhoMax alpha h w fuel (rho * 10) (some (wNew, hNew))
      else pure (rho, some (wNew, hNew))
    else pure (rho, new)

/-- linear.py L79-92: the outer loop with the rounds that are left. L90 raises a `TypeError` if the inner loop was skipped. -/
def outer (fuel : Nat) (minim : K → K → Doubled K d → Doubled K d) (p : Params K) : Nat → State K d → Except Err (State K d)
  | 0, s => pure s
  | k + 1, s => do
    let (rho, new) ← inner minim p.rhoMax s.alpha s.h s.w fuel s.rho none
    match new with
    | none => throw .type
    | some (w, h) =>
      let s' : State K d := ⟨w, rho, s.alpha + rho * h, some h⟩
      if h ≤ p.hTol ∨ rho ≥ p.rhoMax then pure s' else outer fuel minim p k s'

/-- linear.py L95: weights below the threshold are dropped. -/
def threshold (τ : K) (W : Matrix (Fin d) (Fin d) K) : Matrix (Fin d) (Fin d) K := fun i j => if |W i j| < τ then 0 else W i j

/-- linear.py L10-96: `notears_linear`, for an accepted loss type. -/
def notearsLinear (fuel : Nat) (minim : K → K → Doubled K d → Doubled K d) (p : Params K) :
    Except Err (Matrix (Fin d) (Fin d) K) := do
  let s ← outer fuel minim p p.maxIter ⟨(fun _ _ => 0, fun _ _ => 0), 1, 0, none⟩
  pure (threshold p.wThreshold (adj s.w))

end
end Cdmir.Notears
