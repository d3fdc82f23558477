import Verif.Model.CrossVal
import Verif.Model.Minimize
import Mathlib.LinearAlgebra.Matrix.PosDef

/-!
Model of the marginal likelihood scores: cdmir/utils/local_score/marginal_base.py and the functions `gpr_multi_new`, `solve_chol`,
`covNoise`, `covSEard`, `sq_dist` and `covSum` of cdmir/utils/local_score/score_utils.py.

Numbers are real numbers. Solving with the Cholesky factors of `K` is multiplying with the inverse of `K`, and the sum of the logarithms of
the diagonal of the factor is half the logarithm of the determinant. The eigenvectors of the kernel matrix and the result of `minimize` are
parameters. `covfunc` is read as the list that the text shows: numpy from version 1.24 on refuses to make an array of it (marginal_base.py
L61, L70, L152, L161), older versions accept it.
-/

namespace Cdmir.Gpr
open KTest CV

/-- `np.matrix` or plain array: which one decides what `*` and a row `a[d, :]` mean. -/
abbrev Kind := Minimize.Kind

/-- The covariance functions that occur: score_utils.py L490, L525. -/
inductive CovF
  | seard
  | noise
  deriving DecidableEq

/-- The number of parameters, `eval` of `'(D+1)'` and `'1'`: score_utils.py L504, L545. -/
def nPar (D : ℕ) : CovF → ℕ
  | .seard => D + 1
  | .noise => 1

/-- `v`, to which function a parameter belongs: score_utils.py L652-L656. -/
def vVec (D : ℕ) (cs : List CovF) : List ℕ := cs.zipIdx.flatMap fun c => List.replicate (nPar D c.1) c.2

/-- `logtheta[np.where(v == i)]`: score_utils.py L663, L676, L689. -/
def pick (v : List ℕ) (lt : List ℝ) (i : ℕ) : List ℝ := ((v.zip lt).filter fun q => q.1 = i).map fun q => q.2

noncomputable section

variable {T D m p : ℕ}

/-- `sq_dist(a)` with one argument, without `Q`: score_utils.py L603-L616. For plain arrays `a[d, :].T` is still a row and `np.tile` makes one
long row of it; the difference with a table of `n` columns raises unless `n` is one. -/
def sqDist1 (k : Kind) (a : Fin D → Fin T → ℝ) : Except Err (Matrix (Fin T) (Fin T) ℝ) :=
  match k with
  | .matrix => .ok (Matrix.of fun i j => ∑ d, (a d j - a d i) ^ 2)
  | .array => if D = 0 ∨ T ≤ 1 then .ok (Matrix.of fun i j => ∑ d, (a d j - a d i) ^ 2) else .error .value

/-- `covNoise(logtheta, x)`: score_utils.py L490-L522. -/
def covNoise (lh : List ℝ) : Except Err (Matrix (Fin T) (Fin T) ℝ) :=
  match lh with
  | [t] => .ok (Real.exp (2 * t) • 1)
  | _ => .error .notImplemented

/-- `covNoise(logtheta, x, z)`: score_utils.py L515-L516. -/
def covNoiseD (lh : List ℝ) : Except Err (Matrix (Fin T) (Fin T) ℝ) :=
  match lh with
  | [t] => .ok ((2 * Real.exp (2 * t)) • 1)
  | _ => .error .notImplemented

/-- `covSEard(loghyper, x)`: score_utils.py L525-L556. The global `K` is not read in this branch. -/
def covSEard (k : Kind) (lh : List ℝ) (X : Data T D) : Except Err (Matrix (Fin T) (Fin T) ℝ) :=
  match lh[D]? with
  | none => .error .index
  | some s =>
    match sqDist1 k fun d i => 1 / Real.exp (lh.getD d.1 0) * X i d with
    | .error e => .error e
    | .ok C => .ok (Matrix.of fun i j => Real.exp (2 * s) * Real.exp (-C i j / 2))

/-- `covSEard(loghyper, x, z)`: the test of L554 holds whenever `x` is given, so the covariance and not its derivative is returned. -/
def covSEardD (k : Kind) (lh : List ℝ) (X : Data T D) : Except Err (Matrix (Fin T) (Fin T) ℝ) := covSEard k lh X

/-- `feval([f, t, x])`: score_utils.py L314-L380. -/
def covOne (k : Kind) (c : CovF) (lh : List ℝ) (X : Data T D) : Except Err (Matrix (Fin T) (Fin T) ℝ) :=
  match c with
  | .seard => covSEard k lh X
  | .noise => covNoise lh

/-- `covSum(covfunc, logtheta, x)`: score_utils.py L630-L666. -/
def covSum (k : Kind) (cs : List CovF) (lt : List ℝ) (X : Data T D) : Except Err (Matrix (Fin T) (Fin T) ℝ) :=
  cs.zipIdx.foldlM (fun A c => (covOne k c.1 (pick (vVec D cs) lt c.2) X).map (A + ·)) 0

/-- `covSum(covfunc, logtheta, x, z)` with a number `z`: score_utils.py L684-L693. -/
def covSumD (k : Kind) (cs : List CovF) (lt : List ℝ) (X : Data T D) (z : ℕ) : Except Err (Matrix (Fin T) (Fin T) ℝ) :=
  match (vVec D cs)[z]? with
  | none => .error .index
  | some i =>
    match cs[i]? with
    | none => .error .index
    | some .seard => covSEardD k (pick (vVec D cs) lt i) X
    | some .noise => covNoiseD (pick (vVec D cs) lt i)

open Classical in
/-- `gpr_multi_new(logtheta, covfunc, x, y, None, 2)`: score_utils.py L383-L480. Only the last partial derivative is computed (L438). -/
def gpr (k : Kind) (cs : List CovF) (lt : List ℝ) (X : Data T D) (y : Matrix (Fin T) (Fin m) ℝ) : Except Err (ℝ × List ℝ) :=
  if (cs.map (nPar D)).sum ≠ lt.length ∨ cs = [] then .error .exception
  else
    match covSum k cs lt X with
    | .error e => .error e
    | .ok K =>
      if ¬ K.PosDef then .error .exception
      else
        let alpha := K⁻¹ * y
        let out1 := 1 / 2 * (y.transpose * alpha).trace + m * (1 / 2 * Real.log K.det) + 1 / 2 * m * T * Real.log (2 * Real.pi)
        let W := (m : ℝ) • K⁻¹ - alpha * alpha.transpose
        match covSumD k cs lt X (lt.length - 1) with
        | .error e => .error e
        | .ok dK => .ok (out1, List.replicate (lt.length - 1) 0 ++ [(∑ i, ∑ j, W i j * dK i j) / 2])

/-- The vectors `y` made from the eigenvectors of the kernel matrix, marginal_base.py L40-L44 and L64. -/
structure Target (T : ℕ) where
  m : ℕ
  y : Matrix (Fin T) (Fin m) ℝ

/-- The median width times 2.5: marginal_base.py L50-L59, L142-L151. -/
def width (X : Data T D) : Option ℝ := (median (upper (gramDist X))).map fun q => Real.sqrt (1 / 2 * q) * (5 / 2)

/-- Columns side by side: `np.hstack`, marginal_base.py L141. -/
def colsOf (l : List (Fin T → ℝ)) : Data T l.length := fun r k => l[k] r

/-- The rest of both scores, from the kernel matrix of `X`, the matrix `PA` and its widths: marginal_base.py L38-L80, L127-L171. `eigdec` raises
for fewer than four rows (score_utils.py L78) and for NaN; `minimize` first calls `gpr_multi_new` at the start, and what that raises is
not caught. A width that is NaN makes the Cholesky factorisation raise. -/
def core (target : Matrix (Fin T) (Fin T) ℝ → Target T) (opt : (List ℝ → Except Err (ℝ × List ℝ)) → List ℝ → Except Err (List ℝ))
    (k : Kind) (Kx : Option (Matrix (Fin T) (Fin T) ℝ)) (PA : Data T D) (start : Option (List ℝ)) : Except Err ℝ :=
  if T < 4 then .error .exception
  else
    match Kx with
    | none => .error .exception
    | some Kx =>
      let t := target (center Kx)
      match start with
      | none => .error .exception
      | some start => do
        let obj := fun lt => gpr k [.seard, .noise] lt PA t.y
        let _ ← obj start
        let lt ← opt obj start
        let r ← obj lt
        .ok (-r.1)

/-- All the numbers, or none if one is missing. -/
def allSome : List (Option ℝ) → Option (List ℝ)
  | [] => some []
  | none :: _ => none
  | some x :: l => (allSome l).map (x :: ·)

/-- `logtheta0`: marginal_base.py L62, L153. -/
def startOf (widths : List (Option ℝ)) : Option (List ℝ) :=
  (allSome widths).map fun w => w.map Real.log ++ [0, Real.log (Real.sqrt (1 / 10))]

/-- `GeneralMarginalScore._score_function`: marginal_base.py L21-L80. Note L24: `X` are the columns of the parents. -/
def generalMarginal (target : Matrix (Fin T) (Fin T) ℝ → Target T)
    (opt : (List ℝ → Except Err (ℝ × List ℝ)) → List ℝ → Except Err (List ℝ)) (data : Data T p) (_i : Fin p) (pa : List (Fin p)) : Except Err ℝ :=
  let X := colsOf (pa.map fun j r => data r j)
  let Kx := kern (5 / 2) 1 X
  match pa with
  | [] => core target opt .array Kx (fun _ (_ : Fin 1) => 0) (some [100, 0, Real.log (Real.sqrt (1 / 10))])
  | _ => core target opt .matrix Kx X (startOf (pa.map fun j => width (col data j)))

/-- `MultiMarginalScore._score_function`: marginal_base.py L98-L171. -/
def multiMarginal {V : Type} {dim : V → ℕ} (target : Matrix (Fin T) (Fin T) ℝ → Target T)
    (opt : (List ℝ → Except Err (ℝ × List ℝ)) → List ℝ → Except Err (List ℝ)) (vars : (v : V) → Data T (dim v)) (i : V) (pa : List V) :
    Except Err ℝ :=
  let Kx := kern (5 / 2) 1 (vars i)
  match pa with
  | [] => core target opt .array Kx (fun _ (_ : Fin 1) => 0) (some [100, 0, Real.log (Real.sqrt (1 / 10))])
  | _ => core target opt .matrix Kx (colsOf (pa.flatMap fun v => List.ofFn fun c r => vars v r c))
      (startOf (pa.flatMap fun v => List.replicate (dim v) (width (vars v))))

end

end Cdmir.Gpr
