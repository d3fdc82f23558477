import Verif.Model.Py
import Mathlib.LinearAlgebra.Matrix.NonsingularInverse
import Mathlib.Analysis.Matrix.Normed
import Mathlib.Analysis.SpecialFunctions.Log.Base
import Mathlib.Analysis.SpecialFunctions.Pow.Real
import Mathlib.Analysis.SpecialFunctions.Exp

/-!
Model of cdmir/discovery/score_based/entropy_based/pytorch_expm.

Tensors hold real numbers: no rounding, no overflow, no NaN, and the decimal constants are the numbers they spell. A matrix is square by its type
(the `ValueError` for other shapes is left out). `precise` says whether an element takes more than four bytes. A batch is a family of matrices over `Fin b`
(the code flattens the leading dimensions first).
-/

namespace Cdmir.Expm

noncomputable section

variable {n : ℕ}

/-- Square matrices. -/
abbrev Mat (n : ℕ) := Matrix (Fin n) (Fin n) ℝ

/-- A row of the table `b` times `[I, A, A2, A3]`: expm_taylor.py L193-199. -/
def row4 {R : Type*} [Ring R] [Algebra ℝ R] (b0 b1 b2 b3 : ℝ) (A : R) : R :=
  b0 • (1 : R) + b1 • A + b2 • (A * A) + b3 • (A * (A * A))

/-- A row of the table `b` times `[I, A, A2, A3, A6]`: expm_taylor.py L247-252. -/
def row5 {R : Type*} [Ring R] [Algebra ℝ R] (b0 b1 b2 b3 b6 : ℝ) (A : R) : R :=
  b0 • (1 : R) + b1 • A + b2 • (A * A) + b3 • (A * (A * A)) + b6 • (A * (A * A) * (A * (A * A)))

/-- expm_taylor.py L141-156, `deg == 8`. -/
def taylor8 {R : Type*} [Ring R] [Algebra ℝ R] (A : R) : R :=
  let A2 := A * A
  let SQRT := Real.sqrt 177
  let x3 : ℝ := 2 / 3
  let a1 := (1 + SQRT) * x3
  let x1 := a1 / 88
  let x2 := a1 / 352
  let c0 := (-271 + 29 * SQRT) / (315 * x3)
  let c1 := (11 * (-1 + SQRT)) / (1260 * x3)
  let c2 := (11 * (-9 + SQRT)) / (5040 * x3)
  let c4 := (89 - SQRT) / (5040 * x3 * x3)
  let y2 := (857 - 58 * SQRT) / 630
  let A4 := A2 * (x1 • A + x2 • A2)
  let A8 := (x3 • A2 + A4) * (c0 • (1 : R) + c1 • A + c2 • A2 + c4 • A4)
  1 + A + y2 • A2 + A8

/-- expm_taylor.py L157-208, `deg == 12`. -/
def taylor12 {R : Type*} [Ring R] [Algebra ℝ R] (A : R) : R :=
  let q0 := row4 (-1.86023205146205530824e-02) (-5.00702322573317714499e-03) (-5.73420122960522249400e-01) (-1.33399693943892061476e-01) A
  let q1 := row4 4.6 9.92875103538486847299e-01 (-1.32445561052799642976e-01) 1.72990000000000000000e-03 A
  let q2 := row4 2.11693118299809440730e-01 1.58224384715726723583e-01 1.65635169436727403003e-01 1.07862779315792429308e-02 A
  let q3 := row4 0 (-1.31810610138301836924e-01) (-2.02785554058925905629e-02) (-6.75951846863086323186e-03) A
  let qaux := q2 + q3 * q3
  q0 + (q1 + qaux) * qaux

/-- expm_taylor.py L210-261, `deg == 18`. -/
def taylor18 {R : Type*} [Ring R] [Algebra ℝ R] (A : R) : R :=
  let q0 := row5 0 (-1.00365581030144618291e-01) (-8.02924648241156932449e-03) (-8.92138498045729985177e-04) 0 A
  let q1 := row5 0 3.97849749499645077844e-01 1.36783778460411720168e+00 4.98289622525382669416e-01 (-6.37898194594723280150e-04) A
  let q2 := row5 (-1.09676396052962061844e+01) 1.68015813878906206114e+00 5.71779846478865511061e-02 (-6.98210122488052056106e-03)
    3.34975017086070470649e-05 A
  let q3 := row5 (-9.04316832390810593223e-02) (-6.76404519071381882256e-02) 6.75961301770459654925e-02 2.95552570429315521194e-02
    (-1.39180257516060693404e-05) A
  let q4 := row5 0 0 (-9.23364619367118555360e-02) (-1.69364939002081722752e-02) (-1.40086798182036094347e-05) A
  let qaux := q0 * q4 + q3
  q1 + (q2 + qaux) * qaux

/-- expm_taylor.py L122-261: `taylor_approx`; `none` for a degree that is not in the list (the function falls off its end). -/
def taylorApprox {R : Type*} [Ring R] [Algebra ℝ R] (A : R) : ℕ → Option R
  | 1 => some (1 + A)
  | 2 => some (1 + A + (1 / 2 : ℝ) • (A * A))
  | 4 => some (1 + A + A * A * ((1 / 2 : ℝ) • (1 : R) + (1 / 6 : ℝ) • A + (1 / 24 : ℝ) • (A * A)))
  | 8 => some (taylor8 A)
  | 12 => some (taylor12 A)
  | 18 => some (taylor18 A)
  | _ => none

/-- expm_taylor.py L5: `degs`. -/
def degs : List ℕ := [1, 2, 4, 8, 12, 18]

/-- expm_taylor.py L7-44: `thetas_dict`. -/
def thetas (precise : Bool) : List ℝ :=
  if precise then [2.220446049250313e-16, 2.580956802971767e-08, 3.397168839976962e-04, 4.991228871115323e-02, 2.996158913811580e-01,
    1.090863719290036e+00]
  else [1.192092800768788e-07, 5.978858893805233e-04, 5.116619363445086e-02, 5.800524627688768e-01, 1.461661507209034e+00, 3.010066362817634e+00]

/-- `thetas[-1]`. -/
def lastTheta (precise : Bool) : ℝ := if precise then 1.090863719290036e+00 else 3.010066362817634e+00

/-- `torch.norm(A, 1)`: the sum of the absolute values of all entries (expm_taylor.py L81, expm64.py L53-54). -/
def sumNorm (A : Mat n) : ℝ := ∑ i, ∑ j, |A i j|

/-- `torch.norm(A, dim=(-2, -1))`: the root of the sum of the squares (expm_taylor.py L103). -/
def frobNorm (A : Mat n) : ℝ := Real.sqrt (∑ i, ∑ j, A i j ^ 2)

/-- `torch.exp` of a matrix, entry by entry. -/
def entryExp (A : Mat n) : Mat n := Matrix.of fun i j => Real.exp (A i j)

/-- `ceil(log2(normA) - log2(theta))`: expm_taylor.py L87, L114. -/
def scaleBy (theta normA : ℝ) : ℤ := ⌈Real.logb 2 normA - Real.logb 2 theta⌉

/-- The loop over the degrees: expm_taylor.py L82-84. `none` if no bound is large enough. -/
def firstDeg (precise : Bool) (normA : ℝ) : Option ℕ := (((degs.zip (thetas precise)).find? fun p => decide (normA ≤ p.2))).map Prod.fst

/-- expm_taylor.py L67-90: `expm_taylor` of one matrix. -/
def expmTaylor (precise : Bool) (A : Mat n) : Option (Mat n) :=
  if n = 1 then some (entryExp A)
  else
    match firstDeg precise (sumNorm A) with
    | some deg => taylorApprox A deg
    | none =>
      let s := scaleBy (lastTheta precise) (sumNorm A)
      (taylorApprox ((2 : ℝ) ^ (-s) • A) 18).map fun X => X ^ (2 ^ s.toNat)

/-- The state of the loop in `matrix_power_two_batch`. -/
structure PowSt (b n : ℕ) where
  A : Fin b → Mat n
  last : ℕ
  processed : ℕ

/-- expm_taylor.py L57-59: the body of the loop, for the next exponent. -/
def powStep {b : ℕ} (idx : List (Fin b)) (ksorted : List ℕ) (st : PowSt b n) (exp : ℕ) : PowSt b n where
  A := fun i => if i ∈ idx.drop st.processed then st.A i ^ (2 ^ (exp - st.last)) else st.A i
  last := exp
  processed := st.processed + ksorted.count exp

/-- expm_taylor.py L46-60: `matrix_power_two_batch`. `idx` is the permutation found by `torch.sort`, which need not be stable.
`ksorted[0]` raises for an empty batch. -/
def powTwoBatch {b : ℕ} (idx : List (Fin b)) (A : Fin b → Mat n) (k : Fin b → ℕ) : Except Err (Fin b → Mat n) :=
  match idx.map k with
  | [] => .error .index
  | k0 :: ks =>
    let ksorted := k0 :: ks
    -- the exponents that occur, in increasing order: `torch.nonzero(torch.bincount(ksorted))`
    let nonzero := (List.range (ksorted.foldl max 0 + 1)).filter fun e => ksorted.count e ≠ 0
    let st : PowSt b n := ⟨fun i => A i ^ (2 ^ k0), k0, ksorted.count (nonzero.headD 0)⟩
    .ok (nonzero.tail.foldl (powStep idx ksorted) st).A

/-- expm_taylor.py L91-119: `expm_taylor` of a batch. -/
def expmBatch {b : ℕ} (sort : (Fin b → ℕ) → List (Fin b)) (precise : Bool) (A : Fin b → Mat n) : Except Err (Fin b → Mat n) :=
  if n = 1 then .ok fun i => entryExp (A i)
  else if ∀ i, frobNorm (A i) = 0 then .ok fun _ => 1
  else
    let k : Fin b → ℕ := fun i =>
      if lastTheta precise < frobNorm (A i) then (scaleBy (lastTheta precise) (frobNorm (A i))).toNat else 0
    powTwoBatch (sort k) (fun i => taylor18 ((1 / 2 : ℝ) ^ k i • A i)) k

/-- The matrix `M` of `differential`: expm_taylor.py L265-270, expm_pade.py L8-12. -/
def doubled (A E : Mat n) : Mat (n + n) := Matrix.reindex finSumFinEquiv finSumFinEquiv (Matrix.fromBlocks A E 0 A)

/-- `M[:n, n:]`. -/
def upperRight (M : Mat (n + n)) : Mat n := Matrix.of fun i j => M (Fin.castAdd n i) (Fin.natAdd n j)

/-- expm_taylor.py L264-271, expm_pade.py L7-13: `differential`. -/
def differential (f : Mat (n + n) → Mat (n + n)) (A E : Mat n) : Mat n := upperRight (f (doubled A E))

/-- expm_taylor.py L280-287: `backward`, for a function `f` that computes the exponential. -/
def backward (f : Mat (n + n) → Mat (n + n)) (A G : Mat n) : Mat n :=
  if A = 0 then G else differential f A.transpose G

/-! ### expm64.py and expm32.py -/

/-- expm64.py L164-168: `pade3`, as the pair `U`, `V`. -/
def pade3 {R : Type*} [Ring R] [Algebra ℝ R] (A : R) : R × R :=
  let A2 := A * A
  (A * ((1 : ℝ) • A2 + (60 : ℝ) • (1 : R)), (12 : ℝ) • A2 + (120 : ℝ) • (1 : R))

/-- expm64.py L170-174: `pade5`. -/
def pade5 {R : Type*} [Ring R] [Algebra ℝ R] (A : R) : R × R :=
  let A2 := A * A
  let A4 := A2 * A2
  (A * ((1 : ℝ) • A4 + (420 : ℝ) • A2 + (15120 : ℝ) • (1 : R)), (30 : ℝ) • A4 + (3360 : ℝ) • A2 + (30240 : ℝ) • (1 : R))

/-- expm64.py L177-181: `pade7`. -/
def pade7 {R : Type*} [Ring R] [Algebra ℝ R] (A : R) : R × R :=
  let A2 := A * A
  let A4 := A2 * A2
  let A6 := A4 * A2
  (A * ((1 : ℝ) • A6 + (1512 : ℝ) • A4 + (277200 : ℝ) • A2 + (8648640 : ℝ) • (1 : R)),
    (56 : ℝ) • A6 + (25200 : ℝ) • A4 + (1995840 : ℝ) • A2 + (17297280 : ℝ) • (1 : R))

/-- expm64.py L183-190: `pade9`. -/
def pade9 {R : Type*} [Ring R] [Algebra ℝ R] (A : R) : R × R :=
  let A2 := A * A
  let A4 := A2 * A2
  let A6 := A4 * A2
  let A8 := A6 * A2
  (A * ((1 : ℝ) • A8 + (3960 : ℝ) • A6 + (2162160 : ℝ) • A4 + (302702400 : ℝ) • A2 + (8821612800 : ℝ) • (1 : R)),
    (90 : ℝ) • A8 + (110880 : ℝ) • A6 + (30270240 : ℝ) • A4 + (2075673600 : ℝ) • A2 + (17643225600 : ℝ) • (1 : R))

/-- expm64.py L192-205: `pade13_scaled`. The powers are scaled after they are computed. -/
def pade13 {R : Type*} [Ring R] [Algebra ℝ R] (s : ℕ) (A : R) : R × R :=
  let A2 := A * A
  let A4 := A2 * A2
  let A6 := A4 * A2
  let B := (2 : ℝ) ^ (-(s : ℤ)) • A
  let B2 := (2 : ℝ) ^ (-2 * (s : ℤ)) • A2
  let B4 := (2 : ℝ) ^ (-4 * (s : ℤ)) • A4
  let B6 := (2 : ℝ) ^ (-6 * (s : ℤ)) • A6
  let U2 := B6 * ((1 : ℝ) • B6 + (16380 : ℝ) • B4 + (40840800 : ℝ) • B2)
  let U := B * (U2 + (33522128640 : ℝ) • B6 + (10559470521600 : ℝ) • B4 + (1187353796428800 : ℝ) • B2 + (32382376266240000 : ℝ) • (1 : R))
  let V2 := B6 * ((182 : ℝ) • B6 + (960960 : ℝ) • B4 + (1323241920 : ℝ) • B2)
  let V := V2 + (670442572800 : ℝ) • B6 + (129060195264000 : ℝ) • B4 + (7771770303897600 : ℝ) • B2 + (64764752532480000 : ℝ) • (1 : R)
  (U, V)

/-- expm32.py L176-187: `pade7_scaled`. -/
def pade7s {R : Type*} [Ring R] [Algebra ℝ R] (s : ℕ) (A : R) : R × R :=
  let A2 := A * A
  let A4 := A2 * A2
  let A6 := A4 * A2
  let B := (2 : ℝ) ^ (-(s : ℤ)) • A
  let B2 := (2 : ℝ) ^ (-2 * (s : ℤ)) • A2
  let B4 := (2 : ℝ) ^ (-4 * (s : ℤ)) • A4
  let B6 := (2 : ℝ) ^ (-6 * (s : ℤ)) • A6
  (B * ((1 : ℝ) • B6 + (1512 : ℝ) • B4 + (277200 : ℝ) • B2 + (8648640 : ℝ) • (1 : R)),
    (56 : ℝ) • B6 + (25200 : ℝ) • B4 + (1995840 : ℝ) • B2 + (17297280 : ℝ) • (1 : R))

/-- expm64.py L289-292: `_solve_P_Q`. `torch.solve` raises for a singular matrix. -/
def solvePQ (UV : Mat n × Mat n) : Except Err (Mat n) :=
  let P := UV.1 + UV.2
  let Q := -UV.1 + UV.2
  if Q.det = 0 then .error .exception else .ok (Q⁻¹ * P)

/-- expm64.py L20-50: `_onenorm_matrix_power_nnm`. The largest entry of `M ^ p` applied to ones; `torch.max` raises without entries. -/
def onenormPower (A : Mat n) (p : ℕ) : Except Err ℝ :=
  if h : 0 < n then
    let v : Fin n → ℝ := (fun v => A.transpose.mulVec v)^[p] fun _ => 1
    .ok (Finset.univ.sup' ⟨⟨0, h⟩, Finset.mem_univ _⟩ v)
  else .error .exception

/-- expm64.py L295-334: `_ell`; `u` is the unit roundoff, 2 to the -53 (expm32.py: -24). -/
def ell (u : ℝ) (A : Mat n) (m : ℕ) : Except Err ℕ := do
  let p := 2 * m + 1
  let absCRecip : ℝ := (Nat.choose (2 * p) p * Nat.factorial (2 * p + 1) : ℕ)
  let r ← onenormPower (Matrix.of fun i j => |A i j|) p
  if r = 0 then return 0
  let alpha := r / (sumNorm A * absCRecip)
  return (max ⌈Real.logb 2 (alpha / u) / (2 * m)⌉ 0).toNat

/-- `d4_tight` and so on: expm64.py L124-162. -/
def dTight (A : Mat n) (k : ℕ) : ℝ := sumNorm (A ^ k) ^ (1 / (k : ℝ))

/-- `max(int(np.ceil(np.log2(eta / theta))), 0)`: `np.log2(0)` is minus infinity, which `int` refuses (expm64.py L281, expm32.py L251). -/
def firstScale (eta theta : ℝ) : Except Err ℕ :=
  if eta = 0 then .error .exception else .ok (max ⌈Real.logb 2 (eta / theta)⌉ 0).toNat

/-- expm64.py L239-286: `_expm`, double precision. The conditions after `and` are only computed if needed. -/
def expm64 (A : Mat n) : Except Err (Mat n) := do
  if n = 1 then return entryExp A
  let u : ℝ := 2 ^ (-53 : ℤ)
  let eta1 := max (dTight A 4) (dTight A 6)
  if eta1 < 1.495585217958292e-002 then
    if (← ell u A 3) = 0 then return (← solvePQ (pade3 A))
  let eta2 := max (dTight A 4) (dTight A 6)
  if eta2 < 2.539398330063230e-001 then
    if (← ell u A 5) = 0 then return (← solvePQ (pade5 A))
  let eta3 := max (dTight A 6) (dTight A 8)
  if eta3 < 9.504178996162932e-001 then
    if (← ell u A 7) = 0 then return (← solvePQ (pade7 A))
  if eta3 < 2.097847961257068e+000 then
    if (← ell u A 9) = 0 then return (← solvePQ (pade9 A))
  let eta4 := max (dTight A 8) (dTight A 10)
  let eta5 := min eta3 eta4
  let s0 ← firstScale eta5 4.25
  let s := s0 + (← ell u ((2 : ℝ) ^ (-(s0 : ℤ)) • A) 13)
  let X ← solvePQ (pade13 s A)
  return X ^ (2 ^ s)

/-- expm32.py L220-257: `_expm`, single precision. -/
def expm32 (A : Mat n) : Except Err (Mat n) := do
  if n = 1 then return entryExp A
  let u : ℝ := 2 ^ (-24 : ℤ)
  let eta1 := max (dTight A 4) (dTight A 6)
  if eta1 < 4.2587300348979312e-001 then
    if (← ell u A 3) = 0 then return (← solvePQ (pade3 A))
  let eta2 := max (dTight A 4) (dTight A 6)
  if eta2 < 1.8801526985337688e+000 then
    if (← ell u A 5) = 0 then return (← solvePQ (pade5 A))
  let eta3 := max (dTight A 6) (dTight A 8)
  let s0 ← firstScale eta3 3.9257248464332842e+000
  let s := s0 + (← ell u ((2 : ℝ) ^ (-(s0 : ℤ)) • A) 7)
  let X ← solvePQ (pade7s s A)
  return X ^ (2 ^ s)

end

end Cdmir.Expm
