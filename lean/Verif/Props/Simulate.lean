import Verif.Lemmas.Simulate
import Mathlib.Algebra.Field.Rat
import Mathlib.Tactic.Ring
import Mathlib.Tactic.NoncommRing

/-! Properties C70 and C71: the simulators of linear and non-linear additive noise models for independent samples. -/

namespace Cdmir.Sim
open BigOperators

set_option linter.unusedSectionVars false

/-- The scale of every node that a `noise_scale` stands for. -/
def ScaleOf {K : Type} [One K] {n : Nat} (sc : Scale K) (sv : Fin n → K) : Prop :=
  (sc = .default ∧ sv = fun _ => 1) ∨ (∃ c, sc = .scalar c ∧ sv = fun _ => c) ∨ sc = .vec (List.ofFn sv)

/-- The noise types for additive noise. -/
def NoiseType.Additive (t : NoiseType) : Prop := t = .gauss ∨ t = .exp ∨ t = .gumbel ∨ t = .uniform ∨ t = .laplace

instance (t : NoiseType) : Decidable t.Additive := by unfold NoiseType.Additive; infer_instance

section
variable {K : Type} [CommRing K] [DecidableEq K] {n : Nat}

theorem ok_bind {α β : Type} (a : α) (f : α → Except Err β) : (Except.ok a >>= f) = f a := rfl

theorem scaleVec_of {sc : Scale K} {sv : Fin n → K} (h : ScaleOf sc sv) : scaleVec n sc = Except.ok sv := by
  rcases h with ⟨rfl, rfl⟩ | ⟨c, rfl, rfl⟩ | rfl
  · rfl
  · rfl
  · simp only [scaleVec, List.length_ofFn, if_true]
    show Except.ok _ = _
    congr 1
    funext i
    simp [List.getD_eq_getElem?_getD]

theorem genNoise_add {ι : Type} {t : NoiseType} (h : t.Additive) (draw : NoiseType → ι → K) (scale : ι → K) :
    genNoise draw t scale = Except.ok (fun i => draw t i * scale i) := by
  rcases h with rfl | rfl | rfl | rfl | rfl <;> rfl

theorem irr_of_acyclic {W : Matrix (Fin n) (Fin n) K} (h : Spec.Acyclic (fun i j => W i j ≠ 0)) (i : Fin n) : ¬ W i i ≠ 0 :=
  fun q => h i (.single q)

theorem singleLinear_add {N : Nat} (d : LinDraw N n K) {t : NoiseType} (ht : t.Additive) (sv : Fin n → K)
    (W : Matrix (Fin n) (Fin n) K) (j : Fin n) (X : Tab N n K) :
    singleLinear d t sv W j X = Except.ok (fun s => ∑ i, X s i * W i j + d.noise j t s * sv j) := by
  have h : singleLinear d t sv W j X = (do
      let noise ← genNoise (d.noise j) t (fun _ => sv j)
      pure (fun s => lin W X j s + noise s)) := by
    rcases ht with rfl | rfl | rfl | rfl | rfl <;> rfl
  rw [h, genNoise_add ht]
  show Except.ok _ = _
  simp only [lin_eq]

theorem lin_dep {N : Nat} {W : Matrix (Fin n) (Fin n) K} {j : Fin n} {X Y : Tab N n K}
    (h : ∀ i, W i j ≠ 0 → ∀ s, X s i = Y s i) (s : Fin N) : ∑ i, X s i * W i j = ∑ i, Y s i * W i j := by
  refine Finset.sum_congr rfl fun i _ => ?_
  by_cases w : W i j = 0
  · simp [w]
  · rw [h i w s]

theorem simLinear_some (nx : Nx n K) (np : Np n K) (W : Matrix (Fin n) (Fin n) K) (N : Nat) {t : NoiseType} {sc : Scale K}
    {sv : Fin n → K} (d : ∀ N, LinDraw N n K) (hnx : nx.Right W) (acyc : Spec.Acyclic (fun i j => W i j ≠ 0))
    (ht : t ≠ .other) (hs : ScaleOf sc sv) {X : Tab N n K} (hX : fillM (nx.topo W) (singleLinear (d N) t sv W) = Except.ok X) :
    simLinear nx np W (some N) t sc d = Except.ok ⟨N, X⟩ := by
  have len : (nx.topo W).length = n := by rw [(hnx.perm acyc).length_eq, List.length_finRange]
  simp only [simLinear, if_neg ht, scaleVec_of hs, hnx.dag.2 acyc, len, ok_bind, hX, Bool.not_true, Bool.false_eq_true, ne_eq,
    not_true_eq_false, if_false]
  rfl

/-- C70. For every acyclic weight matrix, every scale and every type of additive noise, the simulated table satisfies the
structural equations "value = weighted sum of the values of the other nodes + scaled noise" for every sample and node, and it is
the only table that does: the order in which networkx lists the nodes does not matter. -/
theorem c70_linear (nx : Nx n K) (np : Np n K) (W : Matrix (Fin n) (Fin n) K) (N : Nat) {t : NoiseType} {sc : Scale K}
    {sv : Fin n → K} (d : ∀ N, LinDraw N n K) (hnx : nx.Right W) (acyc : Spec.Acyclic (fun i j => W i j ≠ 0)) (ht : t.Additive)
    (hs : ScaleOf sc sv) :
    ∃ X : Tab N n K, simLinear nx np W (some N) t sc d = Except.ok ⟨N, X⟩ ∧
      (∀ s j, X s j = ∑ i, X s i * W i j + sv j * (d N).noise j t s) ∧
      ∀ Y : Tab N n K, (∀ s j, Y s j = ∑ i, Y s i * W i j + sv j * (d N).noise j t s) → Y = X := by
  have hv := fun j X => singleLinear_add (d N) ht sv W j X
  obtain ⟨X, hX⟩ := foldlM_ok hv (nx.topo W) (fun _ _ => 0)
  have irr := irr_of_acyclic acyc
  have dep : ∀ j (X Y : Tab N n K), (∀ i, W i j ≠ 0 → ∀ s, X s i = Y s i) →
      singleLinear (d N) t sv W j X = singleLinear (d N) t sv W j Y := by
    intro j X Y q
    rw [hv, hv]
    congr 1; funext s; rw [lin_dep q s]
  have pw : (nx.topo W).Pairwise (fun a b => ¬ W b a ≠ 0) := by simpa using hnx.order acyc
  have eqs : ∀ j, singleLinear (d N) t sv W j X = Except.ok (fun s => X s j) :=
    fillM_spec irr dep (hnx.perm acyc) pw hX
  refine ⟨X, ?_, fun s j => ?_, fun Y hY => ?_⟩
  · exact simLinear_some nx np W N d hnx acyc (by rcases ht with rfl | rfl | rfl | rfl | rfl <;> simp) hs hX
  · have := eqs j
    rw [hv] at this
    rw [← congrFun (Except.ok.inj this) s, mul_comm (sv j)]
  · refine fixed_unique (value := singleLinear (d N) t sv W) irr dep (hnx.perm acyc) pw (fun j => ?_) eqs
    rw [hv]
    congr 1; funext s
    rw [hY s j, mul_comm (sv j)]

/-- C70. With binary or count values the value is drawn with a probability or rate made from the weighted sum of the final values of
the other nodes. -/
theorem c70_draws (nx : Nx n K) (np : Np n K) (W : Matrix (Fin n) (Fin n) K) (N : Nat) {sc : Scale K} {sv : Fin n → K}
    (d : ∀ N, LinDraw N n K) (hnx : nx.Right W) (acyc : Spec.Acyclic (fun i j => W i j ≠ 0)) (hs : ScaleOf sc sv) :
    (∃ X : Tab N n K, simLinear nx np W (some N) .logistic sc d = Except.ok ⟨N, X⟩ ∧
      ∀ s j, X s j = (d N).binomial j s ((d N).sigmoid (∑ i, X s i * W i j))) ∧
    (∃ X : Tab N n K, simLinear nx np W (some N) .poisson sc d = Except.ok ⟨N, X⟩ ∧
      ∀ s j, X s j = (d N).poisson j s ((d N).exp (∑ i, X s i * W i j))) := by
  have gen : ∀ t, t ≠ NoiseType.other → ∀ f : Fin n → Fin N → K → K,
      (∀ j X, singleLinear (d N) t sv W j X = Except.ok (fun s => f j s (lin W X j s))) →
      ∃ X : Tab N n K, simLinear nx np W (some N) t sc d = Except.ok ⟨N, X⟩ ∧
        ∀ s j, X s j = f j s (∑ i, X s i * W i j) := by
    intro t ht f hf
    obtain ⟨X, hX⟩ := foldlM_ok hf (nx.topo W) (fun _ _ => 0)
    have pw : (nx.topo W).Pairwise (fun a b => ¬ W b a ≠ 0) := by simpa using hnx.order acyc
    have eqs := fillM_spec (P := fun i j => W i j ≠ 0) (irr_of_acyclic acyc) (value := singleLinear (d N) t sv W)
      (fun j X Y q => by
        rw [hf, hf]; congr 1; funext s; rw [lin_eq, lin_eq, lin_dep q s]) (hnx.perm acyc) pw hX
    refine ⟨X, ?_, fun s j => ?_⟩
    · exact simLinear_some nx np W N d hnx acyc ht hs hX
    · have := eqs j
      rw [hf] at this
      rw [← congrFun (Except.ok.inj this) s, lin_eq]
  exact ⟨gen .logistic (by simp) (fun j s x => (d N).binomial j s ((d N).sigmoid x)) (fun _ _ => rfl),
    gen .poisson (by simp) (fun j s x => (d N).poisson j s ((d N).exp x)) (fun _ _ => rfl)⟩

/-- C70. A weight matrix with a cycle (also a loop at one node) is refused with `ValueError`, whatever the number of samples. -/
theorem c70_cyclic (nx : Nx n K) (np : Np n K) (W : Matrix (Fin n) (Fin n) K) (N : Option Nat) {t : NoiseType} {sc : Scale K}
    {sv : Fin n → K} (d : ∀ N, LinDraw N n K) (hnx : nx.Right W) (cyc : ¬ Spec.Acyclic (fun i j => W i j ≠ 0))
    (ht : t ≠ .other) (hs : ScaleOf sc sv) : simLinear nx np W N t sc d = Except.error .value := by
  have : nx.isDag W = false := by
    cases h : nx.isDag W with
    | false => rfl
    | true => exact absurd (hnx.dag.1 h) cyc
  simp only [simLinear, if_neg ht, scaleVec_of hs, this]
  rfl

/-- C70. A list of scales whose length is not the number of nodes is refused with `ValueError`. -/
theorem c70_scale (nx : Nx n K) (np : Np n K) (W : Matrix (Fin n) (Fin n) K) (N : Option Nat) {t : NoiseType} {l : List K}
    (d : ∀ N, LinDraw N n K) (ht : t ≠ .other) (hl : l.length ≠ n) :
    simLinear nx np W N t (.vec l) d = Except.error .value := by
  unfold simLinear
  rw [if_neg ht]
  simp only [scaleVec, if_neg hl]
  rfl

end

/-- C70. Without a number of samples (Gaussian noise) the returned square table `X` carries the covariance of the model:
`(I-W)ᵀ (XᵀX) (I-W) = n · diag(scale²)`, with `I - W` invertible, so `XᵀX / n` is the covariance of `x = xW + noise`. -/
theorem c70_population {K : Type} [Field K] [DecidableEq K] {n : Nat} (nx : Nx n K) (np : Np n K) (W : Matrix (Fin n) (Fin n) K)
    {sc : Scale K} {sv : Fin n → K} (d : ∀ N, LinDraw N n K) (hnx : nx.Right W)
    (acyc : Spec.Acyclic (fun i j => W i j ≠ 0)) (hs : ScaleOf sc sv) (hinv : ∀ A, A.det ≠ 0 → np.inv A * A = 1)
    (hsq : np.sqrt (n : K) * np.sqrt (n : K) = n) :
    (1 - W).det ≠ 0 ∧ ∃ X : Matrix (Fin n) (Fin n) K, simLinear nx np W none .gauss sc d = Except.ok ⟨n, X⟩ ∧
      (1 - W).transpose * (X.transpose * X) * (1 - W) = (n : K) • Matrix.diagonal (fun i => sv i * sv i) := by
  have hd := det_ne_zero (fun i => not_not.1 (irr_of_acyclic acyc i)) (hnx.perm acyc) (hnx.order acyc)
  refine ⟨hd, (np.sqrt (n : K) • Matrix.diagonal sv) * np.inv (1 - W), ?_, ?_⟩
  · simp only [simLinear, scaleVec_of hs, hnx.dag.2 acyc]
    rfl
  · have e := hinv _ hd
    have e2 : (1 - W).transpose * (np.inv (1 - W)).transpose = 1 := by rw [← Matrix.transpose_mul, e, Matrix.transpose_one]
    have dd : (np.sqrt (n : K) • Matrix.diagonal sv).transpose * (np.sqrt (n : K) • Matrix.diagonal sv) =
        (n : K) • Matrix.diagonal (fun i => sv i * sv i) := by
      rw [Matrix.transpose_smul, Matrix.diagonal_transpose, Matrix.smul_mul, Matrix.mul_smul, Matrix.diagonal_mul_diagonal,
        smul_smul, hsq]
    rw [Matrix.transpose_mul]
    calc _ = ((1 - W).transpose * (np.inv (1 - W)).transpose) *
          ((np.sqrt (n : K) • Matrix.diagonal sv).transpose * (np.sqrt (n : K) • Matrix.diagonal sv)) *
          (np.inv (1 - W) * (1 - W)) := by simp only [Matrix.mul_assoc]
      _ = _ := by rw [e, e2, dd, Matrix.one_mul, Matrix.mul_one]

/-! ### A case: three nodes, `0 → 1 → 2` and `0 → 2` -/

theorem acyclic_of_lt {n : Nat} {R : Fin n → Fin n → Prop} (h : ∀ i j, R i j → i < j) : Spec.Acyclic R := by
  intro u hu
  have : ∀ v, Relation.TransGen R u v → u < v := by
    intro v hv
    induction hv with
    | single q => exact h _ _ q
    | tail _ q ih => exact lt_trans ih (h _ _ q)
  exact absurd (this u hu) (lt_irrefl u)

/-- Weights of `0 → 1 → 2` and `0 → 2`. -/
def exW : Matrix (Fin 3) (Fin 3) ℚ := fun i j => if i < j then 2 * i + j else 0

theorem exW_acyclic : Spec.Acyclic (fun i j => exW i j ≠ 0) :=
  acyclic_of_lt (fun i j h => by by_contra q; exact h (if_neg q))

/-- networkx on that matrix. -/
def exNx : Nx 3 ℚ := ⟨fun _ => true, fun _ => [0, 1, 2]⟩

theorem exNx_right : exNx.Right exW := by
  refine ⟨⟨fun _ => exW_acyclic, fun _ => rfl⟩, fun _ => ?_, fun _ => ?_⟩
  · exact List.Perm.refl _
  · decide +kernel

/-- Draws: noise `j + s + 1`, a binomial draw that answers 1 above one half, a poisson draw that answers the rate. -/
def exDraw (N : Nat) : LinDraw N 3 ℚ where
  noise := fun j _ s => (j : ℚ) + s + 1
  binomial := fun _ _ p => if p > 1 / 2 then 1 else 0
  poisson := fun _ _ r => r
  sigmoid := fun x => x / (1 + |x|)
  exp := fun x => x + 1

example : ∃ X : Tab 2 3 ℚ, simLinear exNx ⟨id, id⟩ exW (some 2) .gauss (.vec [1, 2, 3]) exDraw = Except.ok ⟨2, X⟩ ∧
    (∀ s j, X s j = ∑ i, X s i * exW i j + ![1, 2, 3] j * (exDraw 2).noise j .gauss s) ∧
    ∀ Y : Tab 2 3 ℚ, (∀ s j, Y s j = ∑ i, Y s i * exW i j + ![1, 2, 3] j * (exDraw 2).noise j .gauss s) → Y = X :=
  c70_linear exNx _ exW 2 exDraw exNx_right exW_acyclic (by decide) (Or.inr (Or.inr rfl))

/-- The table of that case: the first sample is 1, 5, 31. -/
example : (match simLinear exNx ⟨id, id⟩ exW (some 2) .gauss (.vec [1, 2, 3]) exDraw with
    | .ok ⟨2, X⟩ => decide ((List.finRange 2).map (fun s => (List.finRange 3).map (X s)) = [[1, 5, 31], [2, 8, 48]])
    | _ => false) = true := by decide +kernel

example : ∃ X : Tab 2 3 ℚ, simLinear exNx ⟨id, id⟩ exW (some 2) .logistic .default exDraw = Except.ok ⟨2, X⟩ ∧
    ∀ s j, X s j = (exDraw 2).binomial j s ((exDraw 2).sigmoid (∑ i, X s i * exW i j)) :=
  (c70_draws exNx ⟨id, id⟩ exW 2 exDraw exNx_right exW_acyclic (Or.inl ⟨rfl, rfl⟩)).1

/-- A matrix with the cycle `0 → 1 → 0`. -/
def exC : Matrix (Fin 3) (Fin 3) ℚ := fun i j => if i ≠ j ∧ i < 2 ∧ j < 2 then 1 else 0

theorem exC_cyclic : ¬ Spec.Acyclic (fun i j => exC i j ≠ 0) := by
  intro h
  exact h 0 (.trans (.single (by decide +kernel : exC 0 1 ≠ 0)) (.single (by decide +kernel : exC 1 0 ≠ 0)))

example : simLinear ⟨fun _ => false, fun _ => []⟩ ⟨id, id⟩ exC (some 5) .exp .default exDraw = Except.error .value :=
  c70_cyclic _ _ exC _ exDraw ⟨⟨fun h => by simp at h, fun h => absurd h exC_cyclic⟩, fun h => absurd h exC_cyclic,
    fun h => absurd h exC_cyclic⟩ exC_cyclic (by decide) (Or.inl ⟨rfl, rfl⟩)

example : simLinear exNx ⟨id, id⟩ exW (some 5) .exp (.vec [1, 2]) exDraw = Except.error .value :=
  c70_scale _ _ _ _ _ (by decide) (by decide)

/-- Four nodes, `0 → 1 → 2 → 3`, where the square root of the number of nodes is rational. -/
def exW4 : Matrix (Fin 4) (Fin 4) ℚ := fun i j => if i.val + 1 = j.val then 3 else 0

theorem exW4_acyclic : Spec.Acyclic (fun i j => exW4 i j ≠ 0) :=
  acyclic_of_lt (fun i j h => by by_contra q; exact h (if_neg (by omega)))

/-- The inverse, and the square root of four. -/
noncomputable def exNp : Np 4 ℚ := ⟨fun A => A⁻¹, fun _ => 2⟩

example : (1 - exW4).det ≠ 0 ∧ ∃ X : Matrix (Fin 4) (Fin 4) ℚ,
    simLinear ⟨fun _ => true, fun _ => [0, 1, 2, 3]⟩ exNp exW4 none .gauss (.scalar 5) (fun _ => ⟨fun _ _ _ => 0, fun _ _ x => x, fun _ _ x => x, id, id⟩) =
      Except.ok ⟨4, X⟩ ∧ (1 - exW4).transpose * (X.transpose * X) * (1 - exW4) = (4 : ℚ) • Matrix.diagonal (fun _ => 5 * 5) := by
  have := c70_population ⟨fun _ => true, fun _ => [0, 1, 2, 3]⟩ exNp exW4 (sc := .scalar 5) (sv := fun _ => 5)
    (fun _ => ⟨fun _ _ _ => 0, fun _ _ x => x, fun _ _ x => x, id, id⟩)
    ⟨⟨fun _ => exW4_acyclic, fun _ => rfl⟩, fun _ => List.Perm.refl _, fun _ => by decide +kernel⟩ exW4_acyclic
    (Or.inr (Or.inl ⟨5, rfl, rfl⟩)) (fun A hA => Matrix.nonsing_inv_mul A (isUnit_iff_ne_zero.2 hA)) (by simp [exNp]; norm_num)
  exact_mod_cast this

/-! ### C71: the non-linear additive noise model -/

section
variable {K : Type} [CommRing K] [DecidableEq K] {n : Nat}

/-- The structural part of the 'mlp' model for node `j` at the values `x`: nothing for a node without predecessors, else a sum
over hidden units. -/
def MlpPart (sigmoid : K → K) (w1 : Fin n → Nat → K) (w2 : Nat → K) (hidden : Nat) (adj : Matrix (Fin n) (Fin n) K) (j : Fin n)
    (x : Fin n → K) : K :=
  if ∀ i, adj i j = 0 then 0 else
    ∑ h ∈ Finset.range hidden, sigmoid (∑ i ∈ Finset.univ.filter (fun i => adj i j ≠ 0), x i * w1 i h) * w2 h

theorem preds_nil {A : Matrix (Fin n) (Fin n) K} (j : Fin n) : (preds A j).length = 0 ↔ ∀ i, A i j = 0 := by
  rw [List.length_eq_zero_iff, List.eq_nil_iff_forall_not_mem]
  simp [mem_preds]

theorem singleNonlinear_mlp {N : Nat} (d : NonlinDraw N n K) {t : NoiseType} (ht : t.Additive) (sv : Fin n → K)
    (hidden : Option Nat) (A : Matrix (Fin n) (Fin n) K) (j : Fin n) (X : Tab N n K) :
    singleNonlinear d t sv .mlp hidden (preds A j) j X = Except.ok (fun s =>
      MlpPart d.sigmoid (d.w1 j) (d.w2 j) (hidden.getD 100) A j (X s) + sv j * d.noise j t s) := by
  unfold singleNonlinear
  rw [genNoise_add ht, ok_bind]
  by_cases h : ∀ i, A i j = 0
  · rw [if_pos ((preds_nil j).2 h)]
    show Except.ok _ = _
    congr 1; funext s
    rw [MlpPart, if_pos h, zero_add, mul_comm]
  · rw [if_neg (fun q => h ((preds_nil j).1 q))]
    show Except.ok _ = _
    congr 1; funext s
    rw [MlpPart, if_neg h, mul_comm (sv j)]
    congr 1

theorem mlp_dep {σ : K → K} {w1 : Fin n → Nat → K} {w2 : Nat → K} {hid : Nat} {A : Matrix (Fin n) (Fin n) K} {j : Fin n}
    {x y : Fin n → K} (h : ∀ i, A i j ≠ 0 → x i = y i) : MlpPart σ w1 w2 hid A j x = MlpPart σ w1 w2 hid A j y := by
  unfold MlpPart
  split
  · rfl
  · refine Finset.sum_congr rfl fun k _ => ?_
    congr 2
    refine Finset.sum_congr rfl fun i hi => ?_
    rw [h i (Finset.mem_filter.1 hi).2]

/-- C71. For every acyclic matrix the simulated table satisfies, for every sample and node, "value = the drawn function of the
values of the predecessors + scaled noise", with the same function in every sample, and no other table does. The function is the
perceptron drawn for the node. -/
theorem c71_mlp (nx : Nx n K) (adj : Matrix (Fin n) (Fin n) K) (N : Nat) {t : NoiseType} {sc : Scale K} {sv : Fin n → K}
    (hidden : Option Nat) (d : ∀ N, NonlinDraw N n K)
    (hnx : nx.Right (fun i j => if adj i j ≠ 0 then 1 else 0)) (acyc : Spec.Acyclic (fun i j => adj i j ≠ 0)) (one : (1 : K) ≠ 0)
    (ht : t.Additive) (hs : ScaleOf sc sv) {func : FuncType} (hf : func ≠ .other) :
    ∃ X : Tab N n K, simNonlinear nx adj (some N) t sc func hidden d = Except.ok ⟨N, X⟩ ∧
      (∀ s j, X s j = MlpPart (d N).sigmoid ((d N).w1 j) ((d N).w2 j) (hidden.getD 100) adj j (X s) +
        sv j * (d N).noise j t s) ∧
      ∀ Y : Tab N n K, (∀ s j, Y s j = MlpPart (d N).sigmoid ((d N).w1 j) ((d N).w2 j) (hidden.getD 100) adj j (Y s) +
        sv j * (d N).noise j t s) → Y = X := by
  set A : Matrix (Fin n) (Fin n) K := fun i j => if adj i j ≠ 0 then 1 else 0 with hA
  have hAa : ∀ i j, A i j ≠ 0 ↔ adj i j ≠ 0 := by
    intro i j
    by_cases q : adj i j = 0 <;> simp [hA, q, one]
  have acA : Spec.Acyclic (fun i j => A i j ≠ 0) := by simpa only [hAa] using acyc
  have mA : ∀ (j : Fin n) (x : Fin n → K), MlpPart (d N).sigmoid ((d N).w1 j) ((d N).w2 j) (hidden.getD 100) A j x =
      MlpPart (d N).sigmoid ((d N).w1 j) ((d N).w2 j) (hidden.getD 100) adj j x := by
    intro j x
    have e0 : (∀ i, A i j = 0) ↔ ∀ i, adj i j = 0 :=
      forall_congr' fun i => not_iff_not.1 (hAa i j)
    have e1 : Finset.univ.filter (fun i => A i j ≠ 0) = Finset.univ.filter (fun i => adj i j ≠ 0) :=
      Finset.filter_congr fun i _ => hAa i j
    unfold MlpPart
    rw [e1]
    simp only [e0]
  have hv := fun j (X : Tab N n K) => singleNonlinear_mlp (d N) ht sv hidden A j X
  obtain ⟨X, hX⟩ := foldlM_ok hv (nx.topo A) (fun _ _ => 0)
  have irr := irr_of_acyclic acA
  have dep : ∀ j (X Y : Tab N n K), (∀ i, A i j ≠ 0 → ∀ s, X s i = Y s i) →
      singleNonlinear (d N) t sv .mlp hidden (preds A j) j X = singleNonlinear (d N) t sv .mlp hidden (preds A j) j Y := by
    intro j X Y q
    rw [hv, hv]
    congr 1; funext s
    rw [mlp_dep (fun i hi => q i hi s)]
  have pw : (nx.topo A).Pairwise (fun a b => ¬ A b a ≠ 0) := by simpa using hnx.order acA
  have eqs : ∀ j, singleNonlinear (d N) t sv .mlp hidden (preds A j) j X = Except.ok (fun s => X s j) :=
    fillM_spec (value := fun j => singleNonlinear (d N) t sv .mlp hidden (preds A j) j) irr dep (hnx.perm acA) pw hX
  refine ⟨X, ?_, fun s j => ?_, fun Y hY => ?_⟩
  · have len : (nx.topo A).length = n := by rw [(hnx.perm acA).length_eq, List.length_finRange]
    have h1 : ¬ (t = .other ∨ t = .logistic ∨ t = .poisson) := by rcases ht with rfl | rfl | rfl | rfl | rfl <;> simp
    have hX' : fillM (nx.topo A) (fun j => singleNonlinear (d N) t sv .mlp hidden (preds A j) j) = Except.ok X := hX
    simp only [simNonlinear, if_neg h1, if_neg hf, scaleVec_of hs, ← hA, hnx.dag.2 acA, len, ok_bind, hX', Bool.not_true,
      Bool.false_eq_true, ne_eq, not_true_eq_false, if_false]
    rfl
  · have := eqs j
    rw [hv] at this
    have := congrFun (Except.ok.inj this) s
    simp only [mA] at this
    exact this.symm
  · refine fixed_unique (value := fun j => singleNonlinear (d N) t sv .mlp hidden (preds A j) j) irr dep (hnx.perm acA) pw
      (fun j => ?_) eqs
    show singleNonlinear (d N) t sv .mlp hidden (preds A j) j Y = _
    rw [hv]
    congr 1; funext s
    rw [mA, ← hY s j]

/-- C71. Without a number of samples the call raises `TypeError` for every acyclic matrix, though `None` is the default. -/
theorem c71_none (nx : Nx n K) (adj : Matrix (Fin n) (Fin n) K) {t : NoiseType} {sc : Scale K} {sv : Fin n → K}
    (hidden : Option Nat) (d : ∀ N, NonlinDraw N n K) (hnx : nx.Right (fun i j => if adj i j ≠ 0 then 1 else 0))
    (acyc : Spec.Acyclic (fun i j => adj i j ≠ 0)) (ht : t.Additive) (hs : ScaleOf sc sv) {func : FuncType}
    (hf : func ≠ .other) : simNonlinear nx adj none t sc func hidden d = Except.error .type := by
  have acA : Spec.Acyclic (fun i j => (fun i j => if adj i j ≠ 0 then (1 : K) else 0) i j ≠ 0) := by
    intro u hu
    refine acyc u (Relation.TransGen.mono (fun a b h => ?_) u u hu)
    intro q
    exact h (by simp [q])
  have len : (nx.topo (fun i j => if adj i j ≠ 0 then 1 else 0)).length = n := by
    rw [(hnx.perm acA).length_eq, List.length_finRange]
  have h1 : ¬ (t = .other ∨ t = .logistic ∨ t = .poisson) := by rcases ht with rfl | rfl | rfl | rfl | rfl <;> simp
  simp only [simNonlinear, if_neg h1, if_neg hf, scaleVec_of hs, hnx.dag.2 acA, len, ok_bind, Bool.not_true,
    Bool.false_eq_true, if_false]
  rw [if_neg (by simp)]
  rfl

end

/-- Draws for the non-linear model: noise `j + s`, a perceptron that answers 7 for every input, and all other functions
the identity. -/
def exNl (N : Nat) : NonlinDraw N 3 ℚ where
  noise := fun j _ s => (j : ℚ) + s
  w1 := fun _ _ _ => 1
  w2 := fun _ _ => 1 / 2
  m1 := fun _ _ => 1
  m2 := fun _ _ => 1
  m3 := fun _ _ => 1
  sigmoid := fun x => x
  tanh := fun x => x
  cos := fun x => x
  sin := fun x => x

theorem exA_right : exNx.Right (fun i j => if exW i j ≠ 0 then 1 else 0) := by
  have ac : Spec.Acyclic (fun i j => (fun i j => if exW i j ≠ 0 then (1 : ℚ) else 0) i j ≠ 0) :=
    acyclic_of_lt (fun i j => by revert i j; decide +kernel)
  exact ⟨⟨fun _ => ac, fun _ => rfl⟩, fun _ => List.Perm.refl _, fun _ => by decide +kernel⟩

example : ∃ X : Tab 2 3 ℚ, simNonlinear exNx exW (some 2) .exp (.scalar 2) .mlp (some 4) exNl = Except.ok ⟨2, X⟩ ∧
    (∀ s j, X s j = MlpPart id (fun _ _ => 1) (fun _ => 1 / 2) 4 exW j (X s) + 2 * ((j : ℚ) + s)) ∧
    ∀ Y : Tab 2 3 ℚ, (∀ s j, Y s j = MlpPart id (fun _ _ => 1) (fun _ => 1 / 2) 4 exW j (Y s) + 2 * ((j : ℚ) + s)) → Y = X :=
  c71_mlp exNx exW 2 (some 4) exNl exA_right exW_acyclic one_ne_zero (by decide) (Or.inr (Or.inl ⟨2, rfl, rfl⟩)) (by decide)

example : simNonlinear exNx exW none .exp (.scalar 2) .mlp none exNl = Except.error .type :=
  c71_none exNx exW none exNl exA_right exW_acyclic (by decide) (Or.inr (Or.inl ⟨2, rfl, rfl⟩)) (by decide)

/-- The structural part of the 'mim' model for node `j`. -/
def MimPart {K : Type} [CommRing K] [DecidableEq K] {n : Nat} (tanh cos sin : K → K) (w1 w2 w3 : Fin n → K)
    (adj : Matrix (Fin n) (Fin n) K) (j : Fin n) (x : Fin n → K) : K :=
  if ∀ i, adj i j = 0 then 0 else
    tanh (∑ i ∈ Finset.univ.filter (fun i => adj i j ≠ 0), x i * w1 i) +
    cos (∑ i ∈ Finset.univ.filter (fun i => adj i j ≠ 0), x i * w2 i) +
    sin (∑ i ∈ Finset.univ.filter (fun i => adj i j ≠ 0), x i * w3 i)

/-- C71. What would be drawn for 'mim': given the values of the predecessors, tanh, cos and sin of three weighted sums of them, and the noise. -/
theorem c71_mim {K : Type} [CommRing K] [DecidableEq K] {n N : Nat} (d : NonlinDraw N n K) {t : NoiseType} (ht : t.Additive) (sv : Fin n → K)
    (hidden : Option Nat) (A : Matrix (Fin n) (Fin n) K) (j : Fin n) (X : Tab N n K) :
    singleNonlinear d t sv .mim hidden (preds A j) j X = Except.ok (fun s =>
      MimPart d.tanh d.cos d.sin (d.m1 j) (d.m2 j) (d.m3 j) A j (X s) + sv j * d.noise j t s) := by
  have hsum : ∀ (f : Fin n → K), ((preds A j).map f).sum = ∑ i ∈ Finset.univ.filter (fun i => A i j ≠ 0), f i := fun f => rfl
  unfold singleNonlinear
  rw [genNoise_add ht, ok_bind]
  by_cases h : ∀ i, A i j = 0
  · rw [if_pos ((preds_nil j).2 h)]
    show Except.ok _ = _
    congr 1; funext s
    rw [MimPart, if_pos h, zero_add, mul_comm]
  · rw [if_neg (fun q => h ((preds_nil j).1 q))]
    show Except.ok _ = _
    congr 1; funext s
    rw [MimPart, if_neg h, mul_comm (sv j), hsum, hsum, hsum]

/-- C71 fails for 'mim': the table simulated with `func_type = 'mim'` does not satisfy the equations of the 'mim' model, it is
the table of the 'mlp' model. -/
theorem c71_false : ∃ X : Tab 2 3 ℚ, simNonlinear exNx exW (some 2) .exp .default .mim (some 4) exNl = Except.ok ⟨2, X⟩ ∧
    ¬ ∀ s j, X s j = MimPart (exNl 2).tanh (exNl 2).cos (exNl 2).sin ((exNl 2).m1 j) ((exNl 2).m2 j) ((exNl 2).m3 j) exW j (X s) +
      (exNl 2).noise j .exp s := by
  obtain ⟨X, h, e, _⟩ := c71_mlp exNx exW 2 (some 4) exNl exA_right exW_acyclic one_ne_zero (t := .exp) (by decide)
    (sc := .default) (Or.inl ⟨rfl, rfl⟩) (func := .mim) (by decide)
  refine ⟨X, h, fun q => ?_⟩
  have e0 := e 0 0
  have e1 := e 0 1
  have e2 := e 0 2
  have q2 := q 0 2
  have f0 : ∀ i, exW i 0 = 0 := by decide +kernel
  have f1 : Finset.univ.filter (fun i => exW i 1 ≠ 0) = {0} := by decide +kernel
  have f2 : Finset.univ.filter (fun i => exW i 2 ≠ 0) = {0, 1} := by decide +kernel
  have g1 : ¬ ∀ i, exW i 1 = 0 := by decide +kernel
  have g2 : ¬ ∀ i, exW i 2 = 0 := by decide +kernel
  simp [MlpPart, f0, exNl] at e0
  simp only [MlpPart, f1, g1, exNl, if_false, Finset.sum_singleton, Option.getD_some, Finset.sum_const, Finset.card_range] at e1
  simp only [MlpPart, f2, g2, exNl, if_false, Option.getD_some, Finset.sum_const, Finset.card_range] at e2
  simp only [MimPart, f2, g2, exNl, if_false] at q2
  rw [Finset.sum_pair (by decide)] at e2 q2
  simp [e0] at e1
  simp [e0, e1] at e2 q2
  norm_num [e2] at q2

end Cdmir.Sim
