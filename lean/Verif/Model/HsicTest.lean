import Verif.Model.Py
import Verif.Model.Kernel
import Verif.Model.FisherZ
import Mathlib.LinearAlgebra.Matrix.Trace
import Mathlib.Analysis.Real.Sqrt
import Mathlib.Probability.Distributions.Gamma

/-! Model of the independence tests in cdmir/discovery/funtional_based/LearningHierarchicalStructure/indTest: HSICTestObject.py,
HSICPermutationTestObject.py, HSICSpectralTestObject.py, HSICBlockTestObject.py, FisherTest.py. Real numbers; `none` stands for a result
that is NaN or infinite. The kernels come from another package and are parameters, as are the drawn permutations and normal numbers. -/

namespace Cdmir.HsicTest

open Finset

noncomputable section

variable {m : Nat}

/-- A kernel matrix. -/
abbrev Mat (m : Nat) := Matrix (Fin m) (Fin m) ℝ

/-- `fill_diagonal(K, 0.)`, which writes into the array of the caller: HSICTestObject.py L51-52. -/
def zeroDiag (K : Mat m) : Mat m := Matrix.of fun i j => if i = j then 0 else K i j

/-- `np.sum(K)`: HSICTestObject.py L55-56. -/
def total (K : Mat m) : ℝ := ∑ i, ∑ j, K i j

/-- HSICTestObject.py L48-57: `HSIC_U_statistic`. The value, and the two arrays as the call leaves them. -/
def uStat (Kx Ky : Mat m) : Option ℝ × Mat m × Mat m :=
  let Kx := zeroDiag Kx
  let Ky := zeroDiag Ky
  let K := Kx * Ky
  let n : ℝ := m
  (if n * (n - 3) * (n - 1) * (n - 2) = 0 then none
    else some (K.trace / (n * (n - 3)) + total Kx * total Ky / (n * (n - 3) * (n - 1) * (n - 2)) - 2 * total K / (n * (n - 3) * (n - 2))), Kx, Ky)

/-- HSICTestObject.py L59-63: `HSIC_V_statistic`. -/
def vStat (Kx Ky : Mat m) : ℝ := ∑ i, ∑ j, centerKernelMatrix Kx i j * centerKernelMatrix Ky i j

/-- `phi - mean(phi, axis=0)`: HSICTestObject.py L68-69. -/
def centred {p : Nat} (phi : Matrix (Fin m) (Fin p) ℝ) : Matrix (Fin m) (Fin p) ℝ := Matrix.of fun i k => phi i k - (∑ t, phi t k) / m

/-- HSICTestObject.py L65-71: `HSIC_V_statistic_rff`. -/
def vStatRff {p q : Nat} (phix : Matrix (Fin m) (Fin p) ℝ) (phiy : Matrix (Fin m) (Fin q) ℝ) : Option ℝ :=
  if m = 0 then none else some (∑ k, ∑ l, (((centred phix).transpose * centred phiy) k l / m) ^ 2)

/-- A quotient of floats: HSICTestObject.py L79, L83, L91. -/
def quot (a b : ℝ) : Option ℝ := if b = 0 then none else some (a / b)

/-- `first_term / float(sqrt(second_term))`: HSICTestObject.py L79, L83, L91. -/
def overRoot (a b : ℝ) : Option ℝ := if b < 0 then none else quot a (Real.sqrt b)

/-- HSICTestObject.py L75-84: `dCor_HSIC_statistic`. -/
def dCor (unbiased : Bool) (Kx Ky : Mat m) : Option ℝ :=
  if unbiased then do
    let a ← (uStat Kx Ky).1
    let Kx := (uStat Kx Ky).2.1
    let Ky := (uStat Kx Ky).2.2
    let b ← (uStat Kx Kx).1
    let c ← (uStat Ky Ky).1
    overRoot a (b * c)
  else overRoot (vStat Kx Ky) (vStat Kx Kx * vStat Ky Ky)

/-- HSICTestObject.py L88-92: `dCor_HSIC_statistic_rff`. -/
def dCorRff {p q : Nat} (phix : Matrix (Fin m) (Fin p) ℝ) (phiy : Matrix (Fin m) (Fin q) ℝ) : Option ℝ := do
  let a ← vStatRff phix phiy
  let b ← vStatRff phix phix
  let c ← vStatRff phiy phiy
  overRoot a (b * c)

/-- `Ky[pp, :][:, pp]`: HSICTestObject.py L143. -/
def shuffle (pp : Equiv.Perm (Fin m)) (K : Mat m) : Mat m := K.submatrix pp pp

/-- What `HSIC_with_shuffles` returns, without the time. -/
structure Shuffled (m : Nat) where
  stat : Option ℝ
  null : List (Option ℝ)
  vars : Option (Option ℝ × Option ℝ)
  left : Mat m × Mat m

/-- HSICTestObject.py L123-154: `HSIC_with_shuffles`, after the kernel matrices are computed. -/
def withShuffles (unbiased : Bool) (perms : List (Equiv.Perm (Fin m))) (estimate : Bool) (Kx Ky : Mat m) : Shuffled m :=
  let st := if unbiased then (uStat Kx Ky).1 else some (vStat Kx Ky)
  let Kx' := if unbiased then (uStat Kx Ky).2.1 else Kx
  let Ky' := if unbiased then (uStat Kx Ky).2.2 else Ky
  let null := perms.map fun pp => if unbiased then (uStat Kx' (shuffle pp Ky')).1 else some (vStat Kx' (shuffle pp Ky'))
  if estimate then ⟨st, null, some ((uStat Kx' Kx').1.map (2 * ·), (uStat Ky' Ky').1.map (2 * ·)), ((uStat Kx' Kx').2.1, (uStat Ky' Ky').2.1)⟩
  else ⟨st, null, none, (Kx', Ky')⟩

/-- HSICTestObject.py L156-184: `HSIC_with_shuffles_rff`, after the features are computed. `HSIC_U_statistic_rff` (L170) is not defined
anywhere: `AttributeError`. -/
def withShufflesRff {p q : Nat} (unbiased : Bool) (perms : List (Equiv.Perm (Fin m))) (estimate : Bool)
    (phix : Matrix (Fin m) (Fin p) ℝ) (phiy : Matrix (Fin m) (Fin q) ℝ) : Except Err (Option ℝ × List (Option ℝ)) :=
  if unbiased then throw .exception
  else if estimate then throw .notImplemented
  else pure (vStatRff phix phiy, perms.map fun pp => vStatRff phix (phiy.submatrix pp id))

/-- `a > b` for floats, false if one of them is NaN (infinities are counted as NaN here): HSICPermutationTestObject.py L41. -/
def gt : Option ℝ → Option ℝ → Bool
  | some a, some b => decide (b < a)
  | _, _ => false

/-- `(1 + sum(null_samples > stat)) / float(1 + num)`: HSICPermutationTestObject.py L41, HSICSpectralTestObject.py L52. -/
def shareAbove (null : List (Option ℝ)) (stat : Option ℝ) : ℝ := (1 + (null.countP fun x => gt x stat : Nat)) / (1 + (null.length : ℝ))

/-- HSICPermutationTestObject.py L23-43: the p-value, without random features. -/
def permutationTest (unbiased : Bool) (perms : List (Equiv.Perm (Fin m))) (Kx Ky : Mat m) : ℝ :=
  let r := withShuffles unbiased perms false Kx Ky
  shareAbove r.null r.stat

/-- The same with random features (`rff=True` or `induce_set=True`): HSICPermutationTestObject.py L38-41, HSICTestObject.py L34-35. -/
def permutationTestRff {p q : Nat} (unbiased : Bool) (perms : List (Equiv.Perm (Fin m)))
    (phix : Matrix (Fin m) (Fin p) ℝ) (phiy : Matrix (Fin m) (Fin q) ℝ) : Except Err ℝ := do
  let r ← withShufflesRff unbiased perms false phix phiy
  pure (shareAbove r.2 r.1)

/-- `np.cov(M.T)`: HSICTestObject.py L190-191. -/
def cov {p : Nat} (phi : Matrix (Fin m) (Fin p) ℝ) : Matrix (Fin p) (Fin p) ℝ := ((m : ℝ) - 1)⁻¹ • ((centred phi).transpose * centred phi)

/-- `np.dot(lambdax.T, np.dot(zz, lambday))` with `zz = randn ** 2`, less 1 if unbiased: HSICSpectralTestObject.py L31-34. -/
def nullSample (unbiased : Bool) (lx ly : List ℝ) (z : Nat → Nat → ℝ) : ℝ :=
  ((lx.zipIdx).map fun a => a.1 * ((ly.zipIdx).map fun b => (z a.2 b.2 ^ 2 - if unbiased then 1 else 0) * b.1).sum).sum

/-- HSICSpectralTestObject.py L25-35, L37-53: the p-value without random features; `eig` is `eigvalsh`. -/
def spectralTest (eig : Mat m → List ℝ) (unbiased : Bool) (draws : List (Nat → Nat → ℝ)) (Kx Ky : Mat m) : ℝ :=
  let r := withShuffles unbiased [] false Kx Ky
  let null := draws.map fun z => some (nullSample unbiased (eig (centerKernelMatrix r.left.1)) (eig (centerKernelMatrix r.left.2)) z)
  shareAbove null (r.stat.map (m * ·))

/-- The same with random features. -/
def spectralTestRff {p q : Nat} (eig : (k : Nat) → Matrix (Fin k) (Fin k) ℝ → List ℝ) (unbiased : Bool) (draws : List (Nat → Nat → ℝ))
    (phix : Matrix (Fin m) (Fin p) ℝ) (phiy : Matrix (Fin m) (Fin q) ℝ) : Except Err ℝ := do
  let r ← withShufflesRff unbiased [] false phix phiy
  let null := draws.map fun z => some (nullSample unbiased (eig p (cov phix)) (eig q (cov phiy)) z)
  pure (shareAbove null (r.1.map (m * ·)))

/-- The parameter `nullvarmethod`: HSICBlockTestObject.py L13. -/
inductive NullVar where
  | permutation
  | direct
  | across
  | other
  deriving DecidableEq

/-- numpy's `mean` of a list. -/
def avg (l : List ℝ) : ℝ := l.sum / l.length

/-- numpy's `var` of a list: HSICBlockTestObject.py L69, L75. -/
def variance (l : List ℝ) : ℝ := avg (l.map fun x => (x - avg l) ^ 2)

/-- `norm.sf(a / sqrt(v))` for `0 ≤ a` scaled; with numpy's division by zero: HSICBlockTestObject.py L77-79. -/
def sfQuot (a v : ℝ) : Fisher.PV :=
  if v < 0 then .nan
  else if v = 0 then (if a = 0 then .nan else if 0 < a then .val 0 else .val 1)
  else .val (1 - Fisher.normCdf (a / Real.sqrt v))

/-- A list of floats, if none is NaN. -/
def allSome (l : List (Option ℝ)) : Option (List ℝ) := l.mapM id

/-- Rows `bb * b`, …, `(bb + 1) * b - 1`: HSICBlockTestObject.py L50-51. -/
def block {ρ : Type} (X : Nat → ρ) (b bb : Nat) : Fin b → ρ := fun i => X (bb * b + i)

/-- HSICBlockTestObject.py L22-80: the p-value for data that are given (not streamed). `n` rows, of which `n // b` blocks are used; `rff`
makes the keyword `isBlockHSIC` of L55 unknown. The values of unknown `nullvarmethod` without a block (an unbound variable, L77) and of
`b = 0` (division by zero, L41) are `exception`. -/
def blockTest {ρ σ : Type} (method : NullVar) (rff : Bool) (b n : Nat) (kx : (Fin b → ρ) → Mat b) (ky : (Fin b → σ) → Mat b) (X : Nat → ρ) (Y : Nat → σ)
    (perm : Nat → Equiv.Perm (Fin b)) : Except Err Fisher.PV :=
  if b = 0 then throw .exception
  else
    let nb := n / b
    if method = .other then (if nb = 0 then throw .exception else throw .notImplemented)
    else if nb = 0 then pure .nan
    else if rff then throw .type
    else
      let res := (List.range nb).map fun bb => withShuffles true (if method = .permutation then [perm bb] else []) (decide (method = .direct)) (kx (block X b bb)) (ky (block Y b bb))
      match allSome (res.map (·.stat)), allSome (res.map fun r => (r.null[0]?).join), allSome (res.map fun r => r.vars.bind (·.1)), allSome (res.map fun r => r.vars.bind (·.2)) with
      | none, _, _, _ => pure .nan
      | some st, nu, vx, vy =>
        let v : Option ℝ := match method with
          | .permutation => nu.map fun l => (b : ℝ) ^ 2 * variance l
          | .direct => vx.bind fun x => vy.map fun y => 2 * avg x * avg y
          | _ => some (variance st)
        pure (match v with
          | none => .nan
          | some v => sfQuot (Real.sqrt (n * b) * (st.sum / nb)) v)

/-- `chi2.cdf`: FisherTest.py L18. The chi-squared distribution with `2 L` degrees of freedom is the Gamma distribution with shape `L` and
rate 1/2; without degrees of freedom scipy gives NaN. -/
def chi2Cdf (L : Nat) (x : ℝ) : Option ℝ := if L = 0 then none else some (ProbabilityTheory.cdf (ProbabilityTheory.gammaMeasure L (1 / 2)) x)

/-- FisherTest.py L9-16: the loop. `math.log` of a negative number is a `ValueError`. -/
def fisherStat : List ℝ → Except Err ℝ
  | [] => pure 0
  | p :: l => do
    let tp := if p = 0 then 1 / 100000 else p
    if tp ≤ 0 then throw .value
    let r ← fisherStat l
    pure (r - 2 * Real.log tp)

/-- FisherTest.py L7-23: `FisherTest`. The answer is `True` if the p-value is above `alph`. -/
def fisherTest (pvals : List ℝ) (alph : ℝ) : Except Err (Bool × Option ℝ) := do
  let s ← fisherStat pvals
  let p := (chi2Cdf pvals.length s).map (1 - ·)
  pure (match p with
    | some p => (decide (alph < p), some p)
    | none => (false, none))

end

end Cdmir.HsicTest
