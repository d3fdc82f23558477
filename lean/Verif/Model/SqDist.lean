import Verif.Model.Rbf
import Verif.Model.Gpr
import Verif.Model.LinAlg

/-! Model of the parts of cdmir/utils/local_score/score_utils.py that the scores do not reach: `sq_dist` with two or three arguments (L577-627), the test set
modes of `covNoise`, `covSEard`, `covSum` and `gpr_multi_new` (L383-461, L490-574, L630-698), and `eigdec` with `evals_only` (L66-109).

Numbers are real numbers. `UnboundLocalError` and `AttributeError` are `Err.exception`. -/

namespace Cdmir.SqDist
open BigOperators Rbf Gpr

noncomputable section

/-- score_utils.py L615, L621: `np.tile(b[d, :], (n, 1))`, `n` copies of a row, for both kinds. -/
def tileB (n : ℕ) (b : Arr) (d : ℕ) : Arr := ⟨n, b.c, fun _ j => b.f d j⟩

/-- score_utils.py L615, L621: `np.tile(a[d, :].T, (1, m))`. The row of an `np.matrix` has two axes and becomes a column; that of a plain array has one, `.T` does
nothing, and the result is one long row. -/
def tileA (k : Kind) (m : ℕ) (a : Arr) (d : ℕ) : Arr :=
  match k with
  | .matrix => ⟨a.c, m, fun i _ => a.f d i⟩
  | .array => ⟨1, a.c * m, fun _ j => a.f d (j % a.c)⟩

/-- score_utils.py L615-616, L621-622: `np.multiply(temp, temp)` for one row. -/
def diffs (k : Kind) (a b : Arr) (d : ℕ) : Except Err Arr := do
  let t ← ewise (· - ·) (tileB a.c b d) (tileA k b.c a d)
  ewise (· * ·) t t

/-- score_utils.py L603-604: a second argument that is missing or has no rows is replaced by the first. -/
def second (a : Arr) : Option Arr → Arr
  | none => a
  | some b => if b.r = 0 then a else b

/-- The sum of all entries. -/
def sumAll (x : Arr) : ℝ := ∑ i ∈ Finset.range x.r, ∑ j ∈ Finset.range x.c, x.f i j

/-- score_utils.py L577-627: `sq_dist(a, b, Q)`, both arguments of one kind. -/
def sqDist (k : Kind) (a : Arr) (b : Option Arr) (Q : Option Arr) : Except Err Arr :=
  let b := second a b
  if b.r ≠ a.r then .error .exception
  else
    match Q with
    | none => (List.range a.r).foldlM (fun C d => do ewise (· + ·) C (← diffs k a b d)) ⟨a.c, b.c, fun _ _ => 0⟩
    | some Q =>
      if (a.c, b.c) = (Q.r, Q.c) then
        (List.range a.r).foldlM (fun C d => do
          let t ← ewise (· * ·) (← diffs k a b d) Q
          pure ⟨a.r, 1, fun i j => if i = d then sumAll t else C.f i j⟩) ⟨a.r, 1, fun _ _ => 0⟩
      else .error .exception

/-- What is passed for `z` beside `nargout = 2`: the test inputs, or their number. -/
inductive TestArg
  | inputs
  | number (z : ℕ)

variable {T D m : ℕ}

/-- `feval([f, t, x, z, 2])` with a number `z`: the variances of the test cases and the covariances with the training cases. `covNoise` returns numbers
(score_utils.py L512-514). `covSEard` takes the branch of L554 whenever `x` is given, so that `B` is never assigned and L572 raises. -/
def covOneT (k : Kind) (c : CovF) (lh : List ℝ) (X : KTest.Data T D) : Except Err (ℝ × ℝ) :=
  match c with
  | .seard => (covSEard k lh X).bind fun _ => .error .exception
  | .noise => match lh with
    | [t] => .ok (Real.exp (2 * t), 0)
    | _ => .error .notImplemented

/-- `covSum(covfunc, logtheta, x, z, 2)`: score_utils.py L668-683. `np.zeros((z, 1))` raises a `TypeError` if `z` is an array. The results are constant over the
test cases. -/
def covSumT (k : Kind) (cs : List CovF) (lt : List ℝ) (X : KTest.Data T D) : TestArg → Except Err (ℝ × ℝ)
  | .inputs => .error .type
  | .number _ => cs.zipIdx.foldlM (fun A c => (covOneT k c.1 (pick (vVec D cs) lt c.2) X).map fun r => (A.1 + r.1, A.2 + r.2)) (0, 0)

open Classical in
/-- `gpr_multi_new(logtheta, covfunc, x, y, xstar, nargout)` with a sum of covariance functions and test inputs: score_utils.py L415-461. L448 passes the inputs on as
`z`. The predictions (L451-456) are taken from the results. -/
def predict (k : Kind) (cs : List CovF) (lt : List ℝ) (X : KTest.Data T D) (y : Matrix (Fin T) (Fin m) ℝ) : Except Err ((Fin m → ℝ) × ℝ) :=
  if (cs.map (nPar D)).sum ≠ lt.length ∨ cs = [] then .error .exception
  else
    match covSum k cs lt X with
    | .error e => .error e
    | .ok K =>
      if ¬ K.PosDef then .error .exception
      else do
        let r ← covSumT k cs lt X .inputs
        pure (fun c => ∑ i, r.2 * (K⁻¹ * y) i c, r.1)

/-- score_utils.py L66-109: `eigdec` for an integer `N` and `evals_only=True`. -/
def eigvals {n : ℕ} (eig : LinAlg.Mat n → List (LinAlg.Pair n)) (argsort : List ℝ → List Nat) (x : LinAlg.Mat n) (N : Nat) : Except Err (List ℝ) :=
  if N < 1 ∨ n < N then .error .exception
  else
    let neg := (eig x).map fun p => -p.1
    let sorted := (argsort neg).map fun i => neg.getD i 0
    .ok ((sorted.take N).map fun v => -v)

end

end Cdmir.SqDist
