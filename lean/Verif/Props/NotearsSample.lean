import Verif.Props.NotearsPair
import Verif.Props.Consistency

/-! C175: notears_linear on records that are drawn from a distribution. -/

namespace Cdmir.Notears
open BigOperators Spec Matrix MeasureTheory ProbabilityTheory Filter Sample Perturb
open scoped ProbabilityTheory Topology MatrixOrder

variable {d : Nat} {Ω : Type} [MeasurableSpace Ω] {P : Measure Ω} [IsProbabilityMeasure P]

/-- The data matrix of the first `N` records: a row per record. -/
def rows (X : ℕ → Ω → Fin d → ℝ) (N : ℕ) (ω : Ω) : Matrix (Fin N) (Fin d) ℝ := fun s v => X s ω v

/-- The products of the columns, divided by the number of rows. -/
noncomputable def gram {n : Nat} (X : Matrix (Fin n) (Fin d) ℝ) : Matrix (Fin d) (Fin d) ℝ := of fun a b => (∑ s, X s a * X s b) / n

omit [MeasurableSpace Ω] in
theorem gram_centre (X : ℕ → Ω → Fin d → ℝ) (N : ℕ) (ω : Ω) : gram (centre .l2 (rows X N ω)) = covN X N ω := rfl

theorem covar_gram₂ {n : Nat} (X : Matrix (Fin n) (Fin d) ℝ) (a b : Fin d → ℝ) : covar (gram X) a b = (∑ s, (∑ l, X s l * a l) * ∑ l, X s l * b l) / n := by
  unfold covar gram
  simp only [of_apply, Finset.mul_sum, Finset.sum_mul, Finset.sum_div, mul_div_assoc']
  rw [Finset.sum_comm]
  conv_rhs => rw [Finset.sum_comm]
  refine Finset.sum_congr rfl fun u _ => ?_
  conv_rhs => rw [Finset.sum_comm]
  refine Finset.sum_congr rfl fun v _ => Finset.sum_congr rfl fun s _ => ?_
  ring

theorem covar_gram {n : Nat} (X : Matrix (Fin n) (Fin d) ℝ) (a : Fin d → ℝ) : covar (gram X) a a = (∑ s, (∑ l, X s l * a l) ^ 2) / n := by
  rw [covar_gram₂]
  simp only [pow_two]

theorem sq_covar {n : Nat} (X : Matrix (Fin n) (Fin d) ℝ) (W : Matrix (Fin d) (Fin d) ℝ) :
    sq X W = 1 / 2 * ∑ j, covar (gram X) (fun l => (1 - W) l j) (fun l => (1 - W) l j) := by
  simp only [covar_gram]
  unfold sq
  rw [← Finset.sum_div, Finset.sum_comm]
  have : ∀ s j, X s j - ∑ l, X s l * W l j = ∑ l, X s l * (1 - W) l j := fun s j => by
    rw [← resid_apply, mul_apply]
  simp only [this]
  ring

theorem var_covar {X : ℕ → Ω → Fin d → ℝ} (hX : Drawn P X) (t t' : Fin d → ℝ) :
    cov[fun ω => ∑ l, X 0 ω l * t l, fun ω => ∑ l, X 0 ω l * t' l; P] = covar (covOf P X) t t' := by
  have h2 : ∀ (t : Fin d → ℝ) a, MemLp (fun ω => X 0 ω a * t a) 2 P := fun t a => ((hX.moment a).mono_exponent (by norm_num)).mul_const _
  rw [covariance_fun_sum_fun_sum (h2 t) (h2 t')]
  unfold covar covOf
  refine Finset.sum_congr rfl fun u _ => Finset.sum_congr rfl fun v _ => ?_
  rw [covariance_mul_const_left, covariance_mul_const_right, of_apply]
  ring

omit [MeasurableSpace Ω] in
theorem resid_fun (X : ℕ → Ω → Fin d → ℝ) (W : Matrix (Fin d) (Fin d) ℝ) (j : Fin d) :
    (fun ω => X 0 ω j - ∑ l, X 0 ω l * W l j) = fun ω => ∑ l, X 0 ω l * (1 - W) l j := by
  funext ω
  simp [Matrix.sub_apply, mul_sub, Finset.sum_sub_distrib, Matrix.one_apply]

/-- Half the sum of the variances of what the matrix does not explain. -/
noncomputable def risk (P : Measure Ω) (X : ℕ → Ω → Fin d → ℝ) (W : Matrix (Fin d) (Fin d) ℝ) : ℝ :=
  1 / 2 * ∑ j, Var[fun ω => X 0 ω j - ∑ l, X 0 ω l * W l j; P]

/-- No combination of the variables is constant. -/
def Free (P : Measure Ω) (X : ℕ → Ω → Fin d → ℝ) : Prop := ∀ t : Fin d → ℝ, t ≠ 0 → 0 < Var[fun ω => ∑ l, X 0 ω l * t l; P]

omit [IsProbabilityMeasure P] in
theorem meas_sum {X : ℕ → Ω → Fin d → ℝ} (hX : Drawn P X) (t : Fin d → ℝ) : AEMeasurable (fun ω => ∑ l, X 0 ω l * t l) P := by
  refine Finset.aemeasurable_fun_sum _ fun l _ => ?_
  exact ((hX.moment l).aestronglyMeasurable.aemeasurable).mul_const _

theorem risk_covar {X : ℕ → Ω → Fin d → ℝ} (hX : Drawn P X) (W : Matrix (Fin d) (Fin d) ℝ) :
    risk P X W = 1 / 2 * ∑ j, covar (covOf P X) (fun l => (1 - W) l j) (fun l => (1 - W) l j) := by
  unfold risk
  congr 1
  refine Finset.sum_congr rfl fun j _ => ?_
  rw [resid_fun, ← covariance_self (meas_sum hX _), var_covar hX]

theorem posDef_free {X : ℕ → Ω → Fin d → ℝ} (hX : Drawn P X) (hf : Free P X) : (covOf P X).PosDef := by
  refine posDef_iff.2 ⟨?_, fun a ha => ?_⟩
  · ext i j
    exact covariance_comm _ _
  · have := hf a ha
    rwa [← covariance_self (meas_sum hX _), var_covar hX, covar_dot] at this

/-- Data whose products are the given covariances. -/
theorem exists_gram (hd : 0 < d) {C : Matrix (Fin d) (Fin d) ℝ} (hC : C.PosDef) : ∃ X : Matrix (Fin d) (Fin d) ℝ, gram X = C := by
  obtain ⟨M, hM⟩ := CStarAlgebra.nonneg_iff_eq_star_mul_self.mp hC.posSemidef.nonneg
  have hd' : (0 : ℝ) < d := by exact_mod_cast hd
  refine ⟨fun s j => √d * M s j, ?_⟩
  ext a b
  rw [hM, Matrix.star_eq_conjTranspose, mul_apply]
  unfold gram
  rw [of_apply, div_eq_iff hd'.ne', Finset.sum_mul]
  refine Finset.sum_congr rfl fun s _ => ?_
  have := Real.mul_self_sqrt hd'.le
  rw [conjTranspose_apply, star_trivial]
  linear_combination M s a * M s b * this

theorem indep_gram {n : Nat} {X : Matrix (Fin n) (Fin d) ℝ} (h : ∀ a : Fin d → ℝ, a ≠ 0 → 0 < covar (gram X) a a) : Indep X := by
  intro t ht
  by_contra h0
  have := h t h0
  rw [covar_gram] at this
  simp [ht] at this

/-- Near the covariances of the distribution the loss is, up to a factor near one, that of the distribution. -/
theorem sq_near {C : Matrix (Fin d) (Fin d) ℝ} (hC : C.PosDef) {η : ℝ} (hη : 0 < η) : ∃ δ > 0, ∀ (T : Matrix (Fin d) (Fin d) ℝ),
    (∀ u v, |T u v - C u v| ≤ δ) → ∀ a : Fin d → ℝ, |covar T a a - covar C a a| ≤ η * covar C a a := by
  obtain ⟨m, hm, hlow⟩ := lower hC
  refine ⟨η * m / (d ^ 2 + 1), by positivity, fun T hT a => ?_⟩
  have h1 := covar_small hT a a
  rw [covar_diff C T a a, add_sub_cancel_left]
  refine h1.trans ?_
  have h2 := hlow a
  have h3 : η * m / (d ^ 2 + 1) * d ^ 2 ≤ η * m := by
    rw [div_mul_eq_mul_div, div_le_iff₀ (by positivity)]
    nlinarith [mul_pos hη hm]
  calc η * m / (d ^ 2 + 1) * d ^ 2 * ‖a‖ * ‖a‖ = (η * m / (d ^ 2 + 1) * d ^ 2) * ‖a‖ ^ 2 := by ring
    _ ≤ η * m * ‖a‖ ^ 2 := mul_le_mul_of_nonneg_right h3 (by positivity)
    _ = η * (m * ‖a‖ ^ 2) := by ring
    _ ≤ η * covar C a a := mul_le_mul_of_nonneg_left h2 hη.le

/-- C175. Records drawn independently from one distribution with fourth moments, no combination of the variables constant, and one acyclic matrix that leaves a
smaller total variance than all others. With a small penalty and tolerance and a large `rho_max` and `max_iter`, none of which depends on the number of records or
on the records, the probability that notears_linear with an optimal minimiser returns exactly the edges of that matrix, and weights within `ε`, tends to one. -/
theorem c175_loop (hd : 0 < d) {X : ℕ → Ω → Fin d → ℝ} (hX : Drawn P X) (hf : Free P X) {B : Matrix (Fin d) (Fin d) ℝ} (ac : Acyclic fun i j => B i j ≠ 0)
    (hB : ∀ W : Matrix (Fin d) (Fin d) ℝ, (Acyclic fun i j => W i j ≠ 0) → W ≠ B → risk P X B < risk P X W) {τ ε : ℝ} (hτ : 0 < τ)
    (hτB : ∀ i j, B i j ≠ 0 → τ < |B i j|) (hε : 0 < ε) :
    ∃ δ, 0 < δ ∧ ∃ M, ∀ lambda1, 0 ≤ lambda1 → lambda1 ≤ δ → ∀ p : Params ℝ, p.hTol ≤ δ → 1 / δ ≤ p.rhoMax → 1 < p.rhoMax → M ≤ p.maxIter → p.wThreshold = τ →
      ∃ fuel, ∀ fuel' ≥ fuel, Tendsto (fun N => P {ω | (∃ minim, Optimal (centre .l2 (rows X N ω)) lambda1 minim) ∧
        ∀ minim, Optimal (centre .l2 (rows X N ω)) lambda1 minim →
          ∃ W, notearsLinear fuel' minim p = .ok W ∧ ∀ i j, (W i j ≠ 0 ↔ B i j ≠ 0) ∧ |W i j - B i j| < ε}) atTop (𝓝 1) := by
  have hC := posDef_free hX hf
  obtain ⟨X0, h0⟩ := exists_gram hd hC
  have hpos : ∀ a : Fin d → ℝ, a ≠ 0 → 0 < covar (covOf P X) a a := fun a ha => by
    rw [covar_dot]; exact (posDef_iff.1 hC).2 a ha
  have hpos' : ∀ a : Fin d → ℝ, 0 ≤ covar (covOf P X) a a := fun a => by
    by_cases ha : a = 0
    · subst ha; simp [covar]
    · exact (hpos a ha).le
  have hi0 : Indep X0 := indep_gram (by rw [h0]; exact hpos)
  have hr : ∀ W, sq X0 W = risk P X W := fun W => by rw [sq_covar, h0, risk_covar hX]
  have hB0 : (hW B).1 = 0 := (c57_linear hd B).2.2 ac
  obtain ⟨gap, hgap, hgap'⟩ := exists_gap hd hτB
  obtain ⟨δ1, hδ1, hnear⟩ := near_best hd hd hi0 (B := B) (fun W hW0 hne => by rw [hr, hr]; exact hB W ((c57_linear hd W).2.1 hW0) hne) (lt_min hε (lt_min hτ hgap))
  obtain ⟨R, hR⟩ : ∃ R, R = sq X0 B := ⟨_, rfl⟩
  have hR0 : 0 ≤ R := hR ▸ sq_nonneg' X0 B
  obtain ⟨η, hη⟩ : ∃ η, η = δ1 / (8 * (R + δ1)) := ⟨_, rfl⟩
  have hη0 : 0 < η := by rw [hη]; positivity
  have hη1 : η * (R + δ1) = δ1 / 8 := by rw [hη]; field_simp
  have hη2 : η ≤ 1 / 8 := by rw [hη, div_le_div_iff₀ (by positivity) (by norm_num)]; linarith
  obtain ⟨δ2, hδ2, hsq⟩ := sq_near hC hη0
  obtain ⟨δ, hδ, M, h⟩ := loop_near hd hB0 (δ0 := δ1 / 4) (M := 2 * R) hε hτ hgap' (by positivity) (by positivity)
  refine ⟨δ, hδ, M, fun lambda1 hl0 hl p h1 h2 h3 h4 h5 => ?_⟩
  obtain ⟨fuel, hfuel⟩ := h lambda1 hl0 hl p h1 h2 h3 h4 h5
  refine ⟨fuel, fun fuel' hge => tendsto_good hX fun D hD => ?_⟩
  have hlim : Tendsto (fun N : ℕ => D / √(N : ℝ)) atTop (𝓝 0) := (Real.tendsto_sqrt_atTop.comp tendsto_natCast_atTop_atTop).const_div_atTop D
  obtain ⟨N0, hN0⟩ := eventually_atTop.1 (hlim.eventually (ge_mem_nhds hδ2))
  refine ⟨N0 + 1, fun N hN ω hcov => ?_⟩
  have hc := hsq (covN X N ω) fun u v => (hcov u v).trans (hN0 N (by omega))
  have hind : Indep (centre .l2 (rows X N ω)) := indep_gram fun a ha => by
    rw [gram_centre]
    have q1 := (abs_le.1 (hc a)).1
    have q2 := hpos a ha
    nlinarith
  have hrel : ∀ W, |sq (centre .l2 (rows X N ω)) W - sq X0 W| ≤ η * sq X0 W := fun W => by
    rw [sq_covar, sq_covar, h0, gram_centre, ← mul_sub, ← Finset.sum_sub_distrib, abs_mul, abs_of_pos (by norm_num : (0 : ℝ) < 1 / 2)]
    have q := (Finset.abs_sum_le_sum_abs (fun j => covar (covN X N ω) (fun l => (1 - W) l j) (fun l => (1 - W) l j) -
      covar (covOf P X) (fun l => (1 - W) l j) (fun l => (1 - W) l j)) Finset.univ).trans (Finset.sum_le_sum fun j _ => hc (fun l => (1 - W) l j))
    rw [← Finset.mul_sum] at q
    linarith
  refine ⟨c169_optimal (by omega) hind hl0 hd, fun minim hopt => hfuel fuel' hge N _ ?_ (fun W hW1 hW2 => ?_) minim hopt⟩
  · have q := (abs_le.1 (hrel B)).2
    rw [← hR] at q
    nlinarith
  · have q1 := (abs_le.1 (hrel B)).2
    have q2 := (abs_le.1 (hrel W)).1
    rw [← hR] at q1
    have q3 : (1 - η) * sq X0 W ≤ (1 + η) * R + δ1 / 4 := by linarith
    have q4 : (1 + η) * R + δ1 / 4 ≤ (1 - η) * (R + δ1) := by nlinarith
    have q5 : sq X0 W ≤ R + δ1 := le_of_mul_le_mul_left (q3.trans q4) (by linarith)
    rw [hR] at q5
    exact hnear W q5 (hW2.trans (by linarith))

/-- The errors of the model `B` are uncorrelated and have the variance `v`. -/
def EqualErrors (P : Measure Ω) (X : ℕ → Ω → Fin d → ℝ) (B : Matrix (Fin d) (Fin d) ℝ) (v : ℝ) : Prop :=
  ∀ i j, cov[fun ω => X 0 ω i - ∑ l, X 0 ω l * B l i, fun ω => X 0 ω j - ∑ l, X 0 ω l * B l j; P] = if i = j then v else 0

theorem EqualErrors.covar {X : ℕ → Ω → Fin d → ℝ} (hX : Drawn P X) {B : Matrix (Fin d) (Fin d) ℝ} {v : ℝ} (h : EqualErrors P X B v) (i j : Fin d) :
    Spec.covar (covOf P X) (fun l => (1 - B) l i) (fun l => (1 - B) l j) = if i = j then v else 0 := by
  rw [← h i j, resid_fun, resid_fun, var_covar hX]

theorem EqualErrors.free {X : ℕ → Ω → Fin d → ℝ} (hX : Drawn P X) {B : Matrix (Fin d) (Fin d) ℝ} {v : ℝ} (hv : 0 < v) (ac : Acyclic fun i j => B i j ≠ 0)
    (h : EqualErrors P X B v) : Free P X := by
  intro t ht
  have hu : IsUnit (1 - B).det := by rw [det_one ac fun _ _ q => q]; exact isUnit_one
  obtain ⟨u, hut⟩ : ∃ u, u = (1 - B)⁻¹.mulVec t := ⟨_, rfl⟩
  have htu : t = (1 - B).mulVec u := by rw [hut, Matrix.mulVec_mulVec, Matrix.mul_nonsing_inv _ hu, Matrix.one_mulVec]
  have hM : (1 - B)ᵀ * covOf P X * (1 - B) = v • (1 : Matrix (Fin d) (Fin d) ℝ) := by
    ext i j
    have := h.covar hX i j
    unfold Spec.covar at this
    rw [Matrix.smul_apply, Matrix.one_apply, smul_eq_mul, mul_ite, mul_one, mul_zero, ← this, mul_apply]
    simp only [mul_apply, transpose_apply, Finset.sum_mul]
    rw [Finset.sum_comm]
  have hu0 : u ≠ 0 := fun h0 => ht (by rw [htu, h0, Matrix.mulVec_zero])
  have hdot : ∀ w, (1 - B).mulVec u ⬝ᵥ w = u ⬝ᵥ (1 - B)ᵀ.mulVec w := fun w => by
    rw [Matrix.mulVec_transpose, dotProduct_comm, Matrix.dotProduct_mulVec, dotProduct_comm]
  rw [← covariance_self (meas_sum hX _), var_covar hX, covar_dot, htu, hdot, Matrix.mulVec_mulVec, Matrix.mulVec_mulVec, hM, Matrix.smul_mulVec, Matrix.one_mulVec, dotProduct_smul, smul_eq_mul]
  exact mul_pos hv (by
    have := dotProduct_self_star_pos_iff.2 hu0
    simpa using this)

/-- C175. Records drawn independently from a linear model with uncorrelated errors of equal variances: the probability that notears_linear with an optimal minimiser
returns exactly the edges of the model, and weights within `ε`, tends to one. -/
theorem c175_equal (hd : 0 < d) {X : ℕ → Ω → Fin d → ℝ} (hX : Drawn P X) {B : Matrix (Fin d) (Fin d) ℝ} (ac : Acyclic fun i j => B i j ≠ 0) {v : ℝ} (hv : 0 < v)
    (h : EqualErrors P X B v) {τ ε : ℝ} (hτ : 0 < τ) (hτB : ∀ i j, B i j ≠ 0 → τ < |B i j|) (hε : 0 < ε) :
    ∃ δ, 0 < δ ∧ ∃ M, ∀ lambda1, 0 ≤ lambda1 → lambda1 ≤ δ → ∀ p : Params ℝ, p.hTol ≤ δ → 1 / δ ≤ p.rhoMax → 1 < p.rhoMax → M ≤ p.maxIter → p.wThreshold = τ →
      ∃ fuel, ∀ fuel' ≥ fuel, Tendsto (fun N => P {ω | (∃ minim, Optimal (centre .l2 (rows X N ω)) lambda1 minim) ∧
        ∀ minim, Optimal (centre .l2 (rows X N ω)) lambda1 minim →
          ∃ W, notearsLinear fuel' minim p = .ok W ∧ ∀ i j, (W i j ≠ 0 ↔ B i j ≠ 0) ∧ |W i j - B i j| < ε}) atTop (𝓝 1) := by
  have hf := h.free hX hv ac
  refine c175_loop hd hX hf ac (fun W hW0 hne => ?_) hτ hτB hε
  obtain ⟨X0, h0⟩ := exists_gram hd (posDef_free hX hf)
  have hr : ∀ W, sq X0 W = risk P X W := fun W => by rw [sq_covar, h0, risk_covar hX]
  have he : EqualNoise X0 B v := fun i j => by
    rw [← h.covar hX i j, ← h0, covar_gram₂]
    simp only [← resid_apply, mul_apply]
  rw [← hr, ← hr]
  exact (he.best hd hv ac).2 W hW0 hne

/-- C175. Two variables that are correlated and have different variances, drawn from whatever model: the probability that notears_linear with an optimal minimiser
returns the edge from the variable with the smaller variance to the other, and no edge back, tends to one. -/
theorem c175_pair {X : ℕ → Ω → Fin 2 → ℝ} (hX : Drawn P X) (hf : Free P X) {i j : Fin 2} (hij : i ≠ j)
    (hab : Var[fun ω => X 0 ω i; P] < Var[fun ω => X 0 ω j; P]) {τ : ℝ} (hτ : 0 < τ)
    (hc : τ < |cov[fun ω => X 0 ω i, fun ω => X 0 ω j; P] / Var[fun ω => X 0 ω i; P]|) :
    ∃ δ, 0 < δ ∧ ∃ M, ∀ lambda1, 0 ≤ lambda1 → lambda1 ≤ δ → ∀ p : Params ℝ, p.hTol ≤ δ → 1 / δ ≤ p.rhoMax → 1 < p.rhoMax → M ≤ p.maxIter → p.wThreshold = τ →
      ∃ fuel, ∀ fuel' ≥ fuel, Tendsto (fun N => P {ω | (∃ minim, Optimal (centre .l2 (rows X N ω)) lambda1 minim) ∧
        ∀ minim, Optimal (centre .l2 (rows X N ω)) lambda1 minim →
          ∃ W, notearsLinear fuel' minim p = .ok W ∧ W i j ≠ 0 ∧ W j i = 0}) atTop (𝓝 1) := by
  obtain ⟨X0, h0⟩ := exists_gram (by decide) (posDef_free hX hf)
  have hr : ∀ W, sq X0 W = risk P X W := fun W => by rw [sq_covar, h0, risk_covar hX]
  have hv : ∀ k, Var[fun ω => X 0 ω k; P] = covOf P X k k := fun k => (covariance_self (hX.moment k).aestronglyMeasurable.aemeasurable).symm
  have hip : ∀ a b, ip X0 a b = 2 * covOf P X a b := fun a b => by
    rw [← h0]
    unfold gram ip
    rw [of_apply]
    push_cast
    ring
  have hpos : 0 < covOf P X i i := (posDef_free hX hf).diag_pos
  rw [hv, hv] at hab
  rw [hv] at hc
  change τ < |covOf P X i j / covOf P X i i| at hc
  have he : ip X0 i j / ip X0 i i = covOf P X i j / covOf P X i i := by rw [hip, hip, mul_div_mul_left _ _ two_ne_zero]
  have hne0 : covOf P X i j ≠ 0 := fun q => by rw [q, zero_div, abs_zero] at hc; linarith
  have hB : ∀ k l, edge i j (covOf P X i j / covOf P X i i) k l ≠ 0 → τ < |edge i j (covOf P X i j / covOf P X i i) k l| := fun k l hkl => by
    unfold edge at hkl ⊢
    split at hkl
    · next q => rw [if_pos q]; exact hc
    · exact absurd rfl hkl
  obtain ⟨δ, hδ, M, h⟩ := c175_loop (by decide) hX hf (edge_acyclic hij (covOf P X i j / covOf P X i i)) (fun W hW0 hne => by
    have := pair_best (by decide) X0 hij (by rw [hip]; linarith) (by rw [hip, hip]; linarith) (by rw [hip]; exact mul_ne_zero two_ne_zero hne0)
      ((c57_linear (by decide) W).2.2 hW0) (by rw [he]; exact hne)
    rwa [he, hr, hr] at this) hτ hB one_pos
  refine ⟨δ, hδ, M, fun lambda1 hl0 hl p h1 h2 h3 h4 h5 => ?_⟩
  obtain ⟨fuel, hfuel⟩ := h lambda1 hl0 hl p h1 h2 h3 h4 h5
  refine ⟨fuel, fun fuel' hge => tendsto_of_tendsto_of_tendsto_of_le_of_le (hfuel fuel' hge) tendsto_const_nhds (fun N => measure_mono fun ω hω => ?_) fun N => prob_le_one⟩
  refine ⟨hω.1, fun minim hopt => ?_⟩
  obtain ⟨W, hW', hs⟩ := hω.2 minim hopt
  refine ⟨W, hW', (hs i j).1.2 ?_, ?_⟩
  · unfold edge
    rw [if_pos ⟨rfl, rfl⟩]
    exact div_ne_zero hne0 hpos.ne'
  · by_contra q
    have := (hs j i).1.1 q
    unfold edge at this
    rw [if_neg (fun q => hij q.2)] at this
    exact this rfl

section examples
open Consistency Fisher

/-- The chain `0 → 1 → 2` with weights one. -/
def exWeights : Matrix (Fin 3) (Fin 3) ℝ := !![0, 1, 0; 0, 0, 1; 0, 0, 0]

theorem exWeights_acyclic : Acyclic fun i j => exWeights i j ≠ 0 := by
  have h : ∀ i j, exWeights i j ≠ 0 → i < j := fun i j => by
    fin_cases i <;> fin_cases j <;> simp [exWeights]
  intro i hi
  have : ∀ {a b}, Relation.TransGen (fun i j => exWeights i j ≠ 0) a b → a < b := fun {a b} t => by
    induction t with
    | single q => exact h _ _ q
    | tail _ q ih => exact ih.trans (h _ _ q)
  exact lt_irrefl i (this hi)

example : ∃ (Ω : Type) (_ : MeasurableSpace Ω) (P : Measure Ω) (X : ℕ → Ω → Fin 3 → ℝ), ∃ δ, 0 < δ ∧ ∃ M, ∀ lambda1, 0 ≤ lambda1 → lambda1 ≤ δ →
    ∀ p : Params ℝ, p.hTol ≤ δ → 1 / δ ≤ p.rhoMax → 1 < p.rhoMax → M ≤ p.maxIter → p.wThreshold = 3 / 10 →
      ∃ fuel, ∀ fuel' ≥ fuel, Tendsto (fun N => P {ω | (∃ minim, Optimal (centre .l2 (rows X N ω)) lambda1 minim) ∧
        ∀ minim, Optimal (centre .l2 (rows X N ω)) lambda1 minim →
          ∃ W, notearsLinear fuel' minim p = .ok W ∧ ∀ i j, (W i j ≠ 0 ↔ exWeights i j ≠ 0) ∧ |W i j - exWeights i j| < 1 / 100}) atTop (𝓝 1) := by
  obtain ⟨Ω, mΩ, P, hP, X, hX, hC⟩ := exDrawn
  refine ⟨Ω, mΩ, P, X, c175_equal (by decide) hX exWeights_acyclic one_pos (fun i j => ?_) (by norm_num) (fun i j => ?_) (by norm_num)⟩
  · rw [resid_fun, resid_fun, var_covar hX, hC]
    fin_cases i <;> fin_cases j <;> simp [Spec.covar, exCov, exWeights, Fin.sum_univ_three] <;> norm_num
  · fin_cases i <;> fin_cases j <;> simp [exWeights] <;> norm_num

omit [IsProbabilityMeasure P] in
theorem drawn_pair {X : ℕ → Ω → Fin 3 → ℝ} (hX : Drawn P X) : Drawn P fun s ω => ![2 * X s ω 0, X s ω 1] := by
  have hg : Measurable fun x : Fin 3 → ℝ => ![2 * x 0, x 1] := measurable_pi_lambda _ fun v => by
    fin_cases v
    · exact (measurable_pi_apply 0).const_mul 2
    · exact measurable_pi_apply 1
  refine ⟨hX.indep.comp (fun _ x => ![2 * x 0, x 1]) fun _ => hg, fun s => (hX.ident s).comp hg, fun v => ?_⟩
  fin_cases v
  · exact (hX.moment 0).const_mul 2
  · exact hX.moment 1

/-- C175, intended of c175_equal without equal variances: false. Two normal errors are independent, the second variable is half the first plus its error, the
variances of the errors are 4 and 1; the probability that notears_linear returns the edge `1 → 0`, and not the edge `0 → 1`, tends to one. -/
theorem c175_unequal_false : ∃ (Ω : Type) (_ : MeasurableSpace Ω) (P : Measure Ω) (_ : IsProbabilityMeasure P) (X : ℕ → Ω → Fin 2 → ℝ), Drawn P X ∧
    IndepFun (fun ω => X 0 ω 0) (fun ω => X 0 ω 1 - 1 / 2 * X 0 ω 0) P ∧ Var[fun ω => X 0 ω 0; P] = 4 ∧ Var[fun ω => X 0 ω 1 - 1 / 2 * X 0 ω 0; P] = 1 ∧
    ∃ δ, 0 < δ ∧ ∃ M, ∀ lambda1, 0 ≤ lambda1 → lambda1 ≤ δ → ∀ p : Params ℝ, p.hTol ≤ δ → 1 / δ ≤ p.rhoMax → 1 < p.rhoMax → M ≤ p.maxIter → p.wThreshold = 3 / 10 →
      ∃ fuel, ∀ fuel' ≥ fuel, Tendsto (fun N => P {ω | (∃ minim, Optimal (centre .l2 (rows X N ω)) lambda1 minim) ∧
        ∀ minim, Optimal (centre .l2 (rows X N ω)) lambda1 minim →
          ∃ W, notearsLinear fuel' minim p = .ok W ∧ W 1 0 ≠ 0 ∧ W 0 1 = 0}) atTop (𝓝 1) := by
  obtain ⟨Ω, mΩ, P, hP, E, hm, hl, hX, hC⟩ := exErrors
  have hD := drawn_pair hX
  obtain ⟨X, hXe⟩ : ∃ X : ℕ → Ω → Fin 2 → ℝ, X = fun s ω => ![2 * exX 0 (E s ω), exX 1 (E s ω)] := ⟨_, rfl⟩
  have hcE : ∀ a b, cov[fun ω => exX a (E 0 ω), fun ω => exX b (E 0 ω); P] = exCov a b := fun a b => congrFun (congrFun hC a) b
  rw [← hXe] at hD
  have hCX : covOf P X = !![4, 2; 2, 2] := by
    ext a b
    unfold covOf
    rw [of_apply, hXe]
    fin_cases a <;> fin_cases b
    · change cov[fun ω => 2 * exX 0 (E 0 ω), fun ω => 2 * exX 0 (E 0 ω); P] = 4
      rw [covariance_const_mul_left, covariance_const_mul_right, hcE]
      simp [exCov]; norm_num
    · change cov[fun ω => 2 * exX 0 (E 0 ω), fun ω => exX 1 (E 0 ω); P] = 2
      rw [covariance_const_mul_left, hcE]
      simp [exCov]
    · change cov[fun ω => exX 1 (E 0 ω), fun ω => 2 * exX 0 (E 0 ω); P] = 2
      rw [covariance_const_mul_right, hcE]
      simp [exCov]
    · change cov[fun ω => exX 1 (E 0 ω), fun ω => exX 1 (E 0 ω); P] = 2
      rw [hcE]
      simp [exCov]
  have hv : ∀ t : Fin 2 → ℝ, Var[fun ω => ∑ l, X 0 ω l * t l; P] = 4 * t 0 ^ 2 + 4 * t 0 * t 1 + 2 * t 1 ^ 2 := fun t => by
    rw [← covariance_self (meas_sum hD _), var_covar hD, hCX]
    simp [Spec.covar, Fin.sum_univ_two]
    ring
  have hm0 : ∀ k, AEMeasurable (fun ω => X 0 ω k) P := fun k => (hD.moment k).aestronglyMeasurable.aemeasurable
  have hvar : ∀ k, Var[fun ω => X 0 ω k; P] = !![(4 : ℝ), 2; 2, 2] k k := fun k => by
    rw [← covariance_self (hm0 k), ← hCX]
    rfl
  refine ⟨Ω, mΩ, P, hP, X, hD, ?_, ?_, ?_, c175_pair hD (fun t ht => ?_) (by decide) ?_ (by norm_num) ?_⟩
  · have h1 : iIndepFun (fun (k : Fin 3) ω => E 0 ω k) P := by
      refine (iIndepFun_iff_map_fun_eq_pi_map fun k => ((measurable_pi_apply k).comp (hm 0)).aemeasurable).2 ?_
      have e : ∀ k : Fin 3, P.map (fun ω => E 0 ω k) = gaussianReal 0 1 := fun k => by
        have := Measure.map_map (μ := P) (measurable_pi_apply k) (hm 0)
        rw [(hl 0).map_eq] at this
        exact this.symm.trans (measurePreserving_eval (fun _ : Fin 3 => gaussianReal 0 1) k).map_eq
      change P.map (E 0) = Measure.pi fun k => P.map fun ω => E 0 ω k
      simp only [e]
      exact (hl 0).map_eq
    have h2 := (h1.indepFun (by decide : (0 : Fin 3) ≠ 1)).comp (φ := fun x => 2 * x) (ψ := fun x => x) (measurable_const_mul 2) measurable_id
    have e1 : (fun ω => X 0 ω 0) = (fun x => 2 * x) ∘ fun ω => E 0 ω 0 := by
      funext ω
      simp [hXe, exX]
    have e2 : (fun ω => X 0 ω 1 - 1 / 2 * X 0 ω 0) = (fun x => x) ∘ fun ω => E 0 ω 1 := by
      funext ω
      simp [hXe, exX]
    rw [e1, e2]
    exact h2
  · rw [hvar]; rfl
  · have e : (fun ω => X 0 ω 1 - 1 / 2 * X 0 ω 0) = fun ω => ∑ l, X 0 ω l * (![-1 / 2, 1] : Fin 2 → ℝ) l := by
      funext ω
      simp [Fin.sum_univ_two]
      ring
    rw [e, hv]
    norm_num
  · rw [hv]
    by_contra q
    have h1 : t 1 = 0 := by nlinarith [sq_nonneg (2 * t 0 + t 1), sq_nonneg (t 1)]
    have h0 : t 0 = 0 := by nlinarith [sq_nonneg (2 * t 0 + t 1), sq_nonneg (t 0)]
    exact ht (by funext k; fin_cases k <;> assumption)
  · rw [hvar, hvar]; norm_num
  · have : cov[fun ω => X 0 ω 1, fun ω => X 0 ω 0; P] = 2 := congrFun (congrFun hCX 1) 0
    rw [this, hvar]
    norm_num

end examples

end Cdmir.Notears
