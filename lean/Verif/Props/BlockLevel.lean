import Mathlib.Probability.CentralLimitTheorem
import Verif.Props.BlockPower

/-! C187: how often the block test of HSICBlockTestObject.py rejects independent variables. -/

namespace Cdmir.BlockLevel
open BigOperators KTest HsicTest ShuffleTest NullMean UnbiasedMean BlockPower MeasureTheory ProbabilityTheory Filter
open scoped Topology

variable {n d e b : Nat}

section limit
variable {Ω : Type} [MeasurableSpace Ω] {P : Measure Ω} [IsProbabilityMeasure P]

theorem gauss_tail {r : ℝ} (hr : 0 < r) (z : ℝ) : (gaussianReal 0 1).real {x | z ≤ x * r} = 1 - Fisher.normCdf (z / r) := by
  have := nullSingletonClass_gaussianReal (μ := 0) (v := 1) one_ne_zero
  have h1 : {x : ℝ | z ≤ x * r} = (Set.Iio (z / r))ᶜ := by
    ext x
    simp [div_le_iff₀ hr]
  rw [h1, probReal_compl_eq_one_sub measurableSet_Iio, Fisher.normCdf_eq, measureReal_congr Iio_ae_eq_Iic]

/-- The central limit theorem for a score divided by an estimated deviation. The set `A N` is where the test rejects. -/
theorem limit_level {S v : ℕ → Ω → ℝ} (hm : ∀ t, Measurable (S t)) (hi : iIndepFun S P) (hid : ∀ t, IdentDistrib (S t) (S 0) P P) (h0 : ∫ ω, S 0 ω ∂P = 0) {σ V : ℝ}
    (hσ : 0 < σ) (h1 : ∫ ω, S 0 ω ^ 2 ∂P = σ ^ 2) (hvm : ∀ N, Measurable (v N)) (hV : 0 < V) (hv : ∀ᵐ ω ∂P, Tendsto (fun N => v N ω) atTop (𝓝 V)) (hb : 0 < b) (z : ℝ)
    {A : ℕ → Set Ω} (hA : ∀ N, 0 < N → ∀ ω, (v N ω ≠ 0 → (ω ∈ A N ↔ z ≤ Real.sqrt (((N * b : ℕ) : ℝ) * b) * ((∑ k ∈ Finset.range N, S k ω) / N) / Real.sqrt (v N ω))) ∧
      (v N ω = 0 → (ω ∈ A N ↔ 0 < (∑ k ∈ Finset.range N, S k ω) / N))) :
    Tendsto (fun N => P.real (A N)) atTop (𝓝 (1 - Fisher.normCdf (z / (b * σ / Real.sqrt V)))) := by
  have hb' : (0 : ℝ) < b := by exact_mod_cast hb
  have hVs := Real.sqrt_pos.2 hV
  have hr : 0 < b * σ / Real.sqrt V := by positivity
  have D0 : TendstoInDistribution (fun (N : ℕ) ω => (Real.sqrt N)⁻¹ * ∑ k ∈ Finset.range N, S k ω / σ) atTop (id : ℝ → ℝ) (fun _ => P) (gaussianReal 0 1) := by
    refine tendstoInDistribution_inv_sqrt_mul_sum (X := fun k ω => S k ω / σ) HasLaw.id ?_ ?_ ?_ ?_
    · rw [integral_div, h0, zero_div]
    · simp only [Pi.pow_apply, div_pow]
      rw [integral_div, h1, div_self (by positivity)]
    · exact hi.comp (fun _ x => x / σ) fun _ => by fun_prop
    · exact fun t => (hid t).comp (u := fun x => x / σ) (by fun_prop)
  have hCm : ∀ N, Measurable fun ω => b * σ / Real.sqrt (v N ω) := fun N => measurable_const.div (hvm N).sqrt
  have hC : TendstoInMeasure P (fun N ω => b * σ / Real.sqrt (v N ω)) atTop fun _ => b * σ / Real.sqrt V := by
    refine tendstoInMeasure_of_tendsto_ae (fun N => (hCm N).aestronglyMeasurable) ?_
    filter_upwards [hv] with ω hω
    exact tendsto_const_nhds.div ((Real.continuous_sqrt.tendsto V).comp hω) hVs.ne'
  have D1 := D0.continuous_comp_prodMk_of_tendstoInMeasure_const (g := fun p : ℝ × ℝ => p.1 * p.2) (by fun_prop) hC fun N => (hCm N).aemeasurable
  obtain ⟨T, hT⟩ : ∃ T : ℕ → Ω → ℝ, T = fun N ω => if v N ω = 0 then (if 0 < (∑ k ∈ Finset.range N, S k ω) / N then z + 1 else z - 1) else
      ((Real.sqrt N)⁻¹ * ∑ k ∈ Finset.range N, S k ω / σ) * (b * σ / Real.sqrt (v N ω)) := ⟨_, rfl⟩
  have hSm : ∀ N, Measurable fun ω => ∑ k ∈ Finset.range N, S k ω := fun N => Finset.measurable_fun_sum _ fun k _ => hm k
  have hTm : ∀ N, Measurable (T N) := fun N => by
    rw [hT]
    refine Measurable.ite (hvm N (measurableSet_singleton 0)) (Measurable.ite (measurableSet_lt measurable_const ((hSm N).div_const _)) measurable_const measurable_const) ?_
    exact ((Finset.measurable_fun_sum _ fun k _ => (hm k).div_const _).const_mul _).mul (hCm N)
  have D2 := tendstoInDistribution_of_tendstoInMeasure_sub T _ D1 (by
    refine tendstoInMeasure_of_tendsto_ae (fun N => ?_) ?_
    · exact ((hTm N).sub (((Finset.measurable_fun_sum _ fun k _ => (hm k).div_const _).const_mul _).mul (hCm N))).aestronglyMeasurable
    · filter_upwards [hv] with ω hω
      refine tendsto_const_nhds.congr' ?_
      filter_upwards [hω.eventually (lt_mem_nhds hV)] with N hN
      rw [hT]
      simp only [Pi.sub_apply, if_neg hN.ne', sub_self, Pi.zero_apply]) fun N => (hTm N).aemeasurable
  have hlim := ProbabilityMeasure.tendsto_measure_of_null_frontier_of_tendsto' D2.tendsto (E := Set.Ici z) (by
    have := nullSingletonClass_gaussianReal (μ := 0) (v := 1) one_ne_zero
    rw [frontier_Ici]
    change (gaussianReal 0 1).map (fun x : ℝ => id x * (b * σ / Real.sqrt V)) {z} = 0
    rw [Measure.map_apply (by fun_prop) (measurableSet_singleton z)]
    have : (fun x : ℝ => id x * (b * σ / Real.sqrt V)) ⁻¹' {z} ⊆ {z / (b * σ / Real.sqrt V)} := fun x hx => by
      rw [Set.mem_singleton_iff, eq_div_iff hr.ne']
      exact hx
    exact measure_mono_null this (measure_singleton _))
  change Tendsto (fun N => P.map (T N) (Set.Ici z)) atTop (𝓝 ((gaussianReal 0 1).map (fun x : ℝ => id x * (b * σ / Real.sqrt V)) (Set.Ici z))) at hlim
  have hreal := (ENNReal.tendsto_toReal (measure_ne_top _ _)).comp hlim
  have e1 : (((gaussianReal 0 1).map fun x : ℝ => id x * (b * σ / Real.sqrt V)) (Set.Ici z)).toReal = 1 - Fisher.normCdf (z / (b * σ / Real.sqrt V)) := by
    rw [Measure.map_apply (by fun_prop) measurableSet_Ici, ← gauss_tail hr z]
    rfl
  rw [e1] at hreal
  refine hreal.congr' ?_
  filter_upwards [eventually_gt_atTop 0] with N hN
  change ((P.map (T N)) (Set.Ici z)).toReal = (P (A N)).toReal
  rw [Measure.map_apply (hTm N) measurableSet_Ici]
  congr 2
  ext ω
  obtain ⟨k1, k2⟩ := hA N hN ω
  have hN' : (0 : ℝ) < N := by exact_mod_cast hN
  rw [Set.mem_preimage, Set.mem_Ici, hT]
  simp only
  by_cases hz : v N ω = 0
  · rw [if_pos hz, k2 hz]
    split <;> rename_i hs
    · simp [hs]
    · simp [hs]
  · rw [if_neg hz, k1 hz]
    have e : Real.sqrt (((N * b : ℕ) : ℝ) * b) * ((∑ k ∈ Finset.range N, S k ω) / N) / Real.sqrt (v N ω) =
        ((Real.sqrt N)⁻¹ * ∑ k ∈ Finset.range N, S k ω / σ) * (b * σ / Real.sqrt (v N ω)) := by
      rw [← Finset.sum_div]
      have hsN := Real.sqrt_pos.2 hN'
      have : Real.sqrt (((N * b : ℕ) : ℝ) * b) = Real.sqrt N * b := by
        push_cast
        rw [mul_assoc, Real.sqrt_mul hN'.le, Real.sqrt_mul_self hb'.le]
      rw [this]
      have h2 : (N : ℝ) = Real.sqrt N * Real.sqrt N := (Real.mul_self_sqrt hN'.le).symm
      have : Real.sqrt N * b * ((∑ k ∈ Finset.range N, S k ω) / N) = (Real.sqrt N)⁻¹ * (∑ k ∈ Finset.range N, S k ω) * b := by
        rw [h2]
        simp only [Real.sqrt_mul_self hsN.le]
        field_simp
      rw [this]
      field_simp
    rw [e]

end limit

section drawn
variable {Ω : Type} [MeasurableSpace Ω] {P : Measure Ω} [IsProbabilityMeasure P]

/-- Disjoint blocks of records are independent. -/
theorem blocks_indep {X : ℕ → Ω → Fin d → ℝ} {Y : ℕ → Ω → Fin e → ℝ} (h : DrawnPairs P X Y) : iIndepFun (fun t ω (a : Fin b) => (X (t * b + a) ω, Y (t * b + a) ω)) P := by
  have hinj : Function.Injective fun p : ℕ × Fin b => p.1 * b + (p.2 : ℕ) := fun p q hpq => by
    have hb : 0 < b := by have := p.2.2; omega
    have h1 : ∀ p : ℕ × Fin b, (p.1 * b + (p.2 : ℕ)) / b = p.1 := fun p => by rw [mul_comm, Nat.mul_add_div hb, Nat.div_eq_of_lt p.2.2, add_zero]
    have e1 : p.1 = q.1 := by rw [← h1 p, ← h1 q]; exact congrArg (· / b) hpq
    have e2 : (p.2 : ℕ) = q.2 := by
      simp only [e1] at hpq
      omega
    exact Prod.ext e1 (Fin.ext e2)
  have := Measure.isProbabilityMeasure_map (((h.measX 0).prodMk (h.measY 0)).aemeasurable (μ := P))
  have hm : ∀ p : ℕ × Fin b, Measurable fun ω => (X (p.1 * b + p.2) ω, Y (p.1 * b + p.2) ω) := fun p => (h.measX _).prodMk (h.measY _)
  have h1 := (h.indep.precomp hinj).map_fun_eq_infinitePi_map hm
  have hl : ∀ p : ℕ × Fin b, P.map (fun ω => (X (p.1 * b + p.2) ω, Y (p.1 * b + p.2) ω)) = P.map fun ω => (X 0 ω, Y 0 ω) := fun p => (h.ident _).map_eq
  have h2 : P.map (fun ω (p : ℕ × Fin b) => (X (p.1 * b + p.2) ω, Y (p.1 * b + p.2) ω)) = Measure.infinitePi fun _ : ℕ × Fin b => P.map fun ω => (X 0 ω, Y 0 ω) :=
    h1.trans (congrArg _ (funext hl))
  have h3 := Measure.infinitePi_map_curry fun (_ : ℕ) (_ : Fin b) => P.map fun ω => (X 0 ω, Y 0 ω)
  rw [← h2, Measure.map_map (MeasurableEquiv.measurable _) (measurable_pi_lambda _ hm)] at h3
  refine (iIndepFun_iff_map_fun_eq_infinitePi_map fun t => tuple_meas h fun a : Fin b => t * b + (a : ℕ)).2 ?_
  simp only [tuple_law h (block_inj _)]
  simp only [Measure.infinitePi_eq_pi (ι := Fin b)] at h3
  exact h3

/-- Independent records have the same law after the second halves are shuffled. -/
theorem swap_law {μ : Measure (Fin d → ℝ)} {ν : Measure (Fin e → ℝ)} [IsProbabilityMeasure μ] [IsProbabilityMeasure ν] (π : Equiv.Perm (Fin b)) :
    MeasurePreserving (fun (z : Fin b → (Fin d → ℝ) × (Fin e → ℝ)) a => ((z a).1, (z (π a)).2)) (Measure.pi fun _ => μ.prod ν) (Measure.pi fun _ => μ.prod ν) := by
  have h1 := measurePreserving_arrowProdEquivProdArrow (Fin d → ℝ) (Fin e → ℝ) (Fin b) (fun _ => μ) (fun _ => ν)
  have h2 := measurePreserving_arrowCongr' (fun _ : Fin b => ν) (fun _ : Fin b => ν) π.symm (MeasurableEquiv.refl _) fun _ => MeasurePreserving.id _
  exact (h1.symm.comp ((MeasurePreserving.id _).prod h2)).comp h1

/-- The empirical variance of independent bounded variables of mean zero. -/
theorem var_limit {W : ℕ → Ω → ℝ} {S : Ω → ℝ} (hm : ∀ t, Measurable (W t)) (hi : iIndepFun W P) (hid : ∀ t, IdentDistrib (W t) S P P) (hW : ∀ t ω, |W t ω| ≤ 4)
    (h0 : ∫ ω, S ω ∂P = 0) : ∀ᵐ ω ∂P, Tendsto (fun N : ℕ => (∑ i ∈ Finset.range N, (W i ω - (∑ j ∈ Finset.range N, W j ω) / N) ^ 2) / N) atTop (𝓝 (∫ ω, S ω ^ 2 ∂P)) := by
  have hid' : ∀ t, IdentDistrib (W t) (W 0) P P := fun t => (hid t).trans (hid 0).symm
  have l1 := strong_law_ae_real W (Integrable.of_bound (hm 0).aestronglyMeasurable 4 (Eventually.of_forall fun ω => by rw [Real.norm_eq_abs]; exact hW 0 ω))
    (fun s t hst => hi.indepFun hst) hid'
  have l2 := strong_law_ae_real (fun t ω => W t ω ^ 2) (Integrable.of_bound ((hm 0).pow_const 2).aestronglyMeasurable 16 (Eventually.of_forall fun ω => by
      rw [Real.norm_eq_abs, abs_pow]
      have := hW 0 ω
      have := abs_nonneg (W 0 ω)
      nlinarith))
    (fun s t hst => (hi.indepFun hst).comp (φ := fun x => x ^ 2) (ψ := fun x => x ^ 2) (by fun_prop) (by fun_prop)) fun t => (hid' t).comp (u := fun x => x ^ 2) (by fun_prop)
  rw [(hid 0).integral_eq, h0] at l1
  have e2 : ∫ ω, W 0 ω ^ 2 ∂P = ∫ ω, S ω ^ 2 ∂P := ((hid 0).comp (u := fun x => x ^ 2) (by fun_prop)).integral_eq
  rw [e2] at l2
  filter_upwards [l1, l2] with ω h1 h2
  have h3 := h2.sub (h1.pow 2)
  simp only [ne_eq, OfNat.ofNat_ne_zero, not_false_eq_true, zero_pow, sub_zero] at h3
  refine h3.congr' ?_
  filter_upwards [eventually_gt_atTop 0] with N hN
  have hN' : (N : ℝ) ≠ 0 := by exact_mod_cast hN.ne'
  simp only [sub_sq, Finset.sum_add_distrib, Finset.sum_sub_distrib, ← Finset.sum_mul, ← Finset.mul_sum, Finset.sum_const, Finset.card_range, nsmul_eq_mul]
  field_simp
  ring

/-- The statistic of one block after a shuffle. -/
noncomputable def shuffled (wx wy : ℝ) (X : ℕ → Ω → Fin d → ℝ) (Y : ℕ → Ω → Fin e → ℝ) (perm : ℕ → Equiv.Perm (Fin b)) (t : ℕ) (ω : Ω) : ℝ :=
  quadAt wx wy fun a : Fin b => (X (t * b + a) ω, Y (t * b + perm t a) ω)

theorem mix_meas (wx wy : ℝ) (π : Equiv.Perm (Fin b)) : Measurable fun z : Fin b → (Fin d → ℝ) × (Fin e → ℝ) => quadAt wx wy fun a => ((z a).1, (z (π a)).2) :=
  (quadAt_meas wx wy).comp (measurable_pi_lambda _ fun a => (measurable_fst.comp (measurable_pi_apply a)).prodMk (measurable_snd.comp (measurable_pi_apply (π a))))

omit [IsProbabilityMeasure P] in
theorem shuffled_meas (wx wy : ℝ) {X : ℕ → Ω → Fin d → ℝ} {Y : ℕ → Ω → Fin e → ℝ} (h : DrawnPairs P X Y) (perm : ℕ → Equiv.Perm (Fin b)) (t : ℕ) :
    Measurable (shuffled wx wy X Y perm t) := by
  have h1 : Measurable fun ω (a : Fin b) => (X (t * b + a) ω, Y (t * b + a) ω) := tuple_meas h fun a : Fin b => t * b + (a : ℕ)
  have h2 := (mix_meas (d := d) (e := e) wx wy (perm t)).comp h1
  exact h2

theorem shuffled_indep (wx wy : ℝ) {X : ℕ → Ω → Fin d → ℝ} {Y : ℕ → Ω → Fin e → ℝ} (h : DrawnPairs P X Y) (perm : ℕ → Equiv.Perm (Fin b)) :
    iIndepFun (shuffled wx wy X Y perm) P :=
  (blocks_indep h).comp (fun t z => quadAt wx wy fun a => ((z a).1, (z (perm t a)).2)) fun t => mix_meas wx wy (perm t)

theorem shuffled_ident (wx wy : ℝ) {X : ℕ → Ω → Fin d → ℝ} {Y : ℕ → Ω → Fin e → ℝ} (h : DrawnPairs P X Y) (hi : IndepFun (X 0) (Y 0) P) (perm : ℕ → Equiv.Perm (Fin b)) (t : ℕ) :
    IdentDistrib (shuffled wx wy X Y perm t) (fun ω => quadAt wx wy fun a : Fin b => (X a ω, Y a ω)) P P := by
  have := Measure.isProbabilityMeasure_map ((h.measX 0).aemeasurable (μ := P))
  have := Measure.isProbabilityMeasure_map ((h.measY 0).aemeasurable (μ := P))
  have hp := (indepFun_iff_map_prod_eq_prod_map_map (h.measX 0).aemeasurable (h.measY 0).aemeasurable).1 hi
  have l1 := tuple_law h (block_inj (b := b) t)
  have l2 := tuple_law h (f := fun a : Fin b => (a : ℕ)) Fin.val_injective
  rw [hp] at l1 l2
  have hm := tuple_meas h fun a : Fin b => t * b + (a : ℕ)
  have hsw := swap_law (b := b) (μ := P.map (X 0)) (ν := P.map (Y 0)) (perm t)
  have : IdentDistrib (fun ω (a : Fin b) => (X (t * b + a) ω, Y (t * b + perm t a) ω)) (fun ω (a : Fin b) => (X a ω, Y a ω)) P P := by
    refine ⟨(hsw.measurable.comp hm).aemeasurable, (tuple_meas h fun a : Fin b => (a : ℕ)).aemeasurable, ?_⟩
    have e := Measure.map_map (μ := P) hsw.measurable hm
    rw [l1, hsw.map_eq] at e
    exact e.symm.trans l2.symm
  exact this.comp (quadAt_meas wx wy)

/-- How often the block test rejects at the level `α`, after `N` whole blocks. -/
noncomputable def rejects (P : Measure Ω) (method : NullVar) (b : Nat) (wx wy : ℝ) (X : ℕ → Ω → Fin d → ℝ) (Y : ℕ → Ω → Fin e → ℝ) (perm : ℕ → Equiv.Perm (Fin b)) (α : ℝ) (N : ℕ) : ℝ :=
  P.real {ω | ∃ p : ℝ, blockTest method false b (N * b) (gaussianWidth wx) (gaussianWidth wy) (fun s => X s ω) (fun s => Y s ω) perm = .ok (.val p) ∧ p ≤ α}

theorem reject_limit {wx wy : ℝ} (hwx : 0 < wx) (hwy : 0 < wy) {X : ℕ → Ω → Fin d → ℝ} {Y : ℕ → Ω → Fin e → ℝ} (h : DrawnPairs P X Y) (hi : IndepFun (X 0) (Y 0) P) (hb : 4 ≤ b)
    {σ V : ℝ} (hσ : 0 < σ) (h1 : ∫ ω, quadAt wx wy (fun a : Fin b => (X a ω, Y a ω)) ^ 2 ∂P = σ ^ 2) (hV : 0 < V) {method : NullVar} (hm : method ≠ .other) (perm : ℕ → Equiv.Perm (Fin b))
    (hvm : ∀ N : ℕ, Measurable fun ω => nullVar method b (N * b) (gaussianWidth wx) (gaussianWidth wy) (fun s => X s ω) (fun s => Y s ω) perm)
    (hv : ∀ᵐ ω ∂P, Tendsto (fun N : ℕ => nullVar method b (N * b) (gaussianWidth wx) (gaussianWidth wy) (fun s => X s ω) (fun s => Y s ω) perm) atTop (𝓝 V)) {α z : ℝ}
    (hz : Fisher.normCdf z = 1 - α) : Tendsto (rejects P method b wx wy X Y perm α) atTop (𝓝 (1 - Fisher.normCdf (z / (b * σ / Real.sqrt V)))) := by
  have hα0 : 0 < α := by have := Fisher.normCdf_lt_one z; linarith
  have hα1 : α < 1 := by
    have h2 := Fisher.normCdf_strictMono (sub_one_lt z)
    have h3 : 0 ≤ Fisher.normCdf (z - 1) := cdf_nonneg _ _
    linarith
  have hone := shuffled_ident wx wy h hi (b := b) (fun _ => 1)
  refine limit_level (S := shuffled wx wy X Y fun _ => (1 : Equiv.Perm (Fin b))) (shuffled_meas wx wy h _) (shuffled_indep wx wy h _) (fun t => (hone t).trans (hone 0).symm) ?_ hσ ?_ hvm hV hv
    (by omega) z fun N hN ω => ?_
  · rw [(hone 0).integral_eq, quad_mean hwx.le hwy.le h hb (f := fun a : Fin b => (a : ℕ)) Fin.val_injective]
    obtain ⟨D, -, h3, h4⟩ := theta hwx hwy h
    rw [h4, h3.2 hi]
  · rw [← h1]
    exact ((hone 0).comp (u := fun x => x ^ 2) (by fun_prop)).integral_eq
  · have hdiv : N * b / b = N := Nat.mul_div_cancel _ (by omega)
    obtain ⟨k1, k2, k3⟩ := c147_value (X := fun s => X s ω) (Y := fun s => Y s ω) (perm := perm) (n := N * b) hb (Nat.le_mul_of_pos_left b hN) (fun x => width_symm (d := d) wx x)
      (fun y => width_symm (d := e) wy y) hm (s := (∑ k ∈ Finset.range N, shuffled wx wy X Y (fun _ => (1 : Equiv.Perm (Fin b))) k ω) / N) (by rw [hdiv]; rfl) rfl
    refine ⟨fun hv0 => ?_, fun hv0 => ?_⟩
    · have e := k2 (lt_of_le_of_ne k1 (Ne.symm hv0))
      constructor
      · rintro ⟨p, hp, hle⟩
        rw [e] at hp
        cases hp
        exact Fisher.normCdf_strictMono.le_iff_le.1 (by linarith)
      · intro hle
        exact ⟨_, e, by have := Fisher.normCdf_strictMono.monotone hle; linarith⟩
    · have e := k3 hv0
      constructor
      · rintro ⟨p, hp, hle⟩
        rw [e] at hp
        split at hp
        · cases hp
        · split at hp
          · assumption
          · cases hp
            linarith
      · intro hpos
        rw [if_neg hpos.ne', if_pos hpos] at e
        exact ⟨0, e, hα0.le⟩

theorem sigma {wx wy : ℝ} (hwx : 0 < wx) (hwy : 0 < wy) {X : ℕ → Ω → Fin d → ℝ} {Y : ℕ → Ω → Fin e → ℝ} (h : DrawnPairs P X Y) (hi : IndepFun (X 0) (Y 0) P) (hb : 4 ≤ b)
    (hv : Var[fun ω => (uStat (gaussianWidth wx (upto X b ω)) (gaussianWidth wy (upto Y b ω))).1.getD 0; P] ≠ 0) :
    ∃ σ : ℝ, 0 < σ ∧ ∫ ω, quadAt wx wy (fun a : Fin b => (X a ω, Y a ω)) ^ 2 ∂P = σ ^ 2 ∧ ∫ ω, quadAt wx wy (fun a : Fin b => (X a ω, Y a ω)) ∂P = 0 := by
  have e : (fun ω => (uStat (gaussianWidth wx (upto X b ω)) (gaussianWidth wy (upto Y b ω))).1.getD 0) = fun ω => quadAt wx wy (fun a : Fin b => (X a ω, Y a ω)) := by
    funext ω
    rw [c144_tuples hb (width_symm wx _) (width_symm wy _)]
    rfl
  have hmean : ∫ ω, quadAt wx wy (fun a : Fin b => (X a ω, Y a ω)) ∂P = 0 := by
    rw [quad_mean hwx.le hwy.le h hb (f := fun a : Fin b => (a : ℕ)) Fin.val_injective]
    obtain ⟨D, -, h3, h4⟩ := theta hwx hwy h
    rw [h4, h3.2 hi]
  have hmeas : Measurable fun ω => quadAt wx wy (fun a : Fin b => (X a ω, Y a ω)) := (quadAt_meas wx wy).comp (tuple_meas h fun a : Fin b => (a : ℕ))
  rw [e, variance_of_integral_eq_zero hmeas.aemeasurable hmean] at hv
  have h0 : 0 ≤ ∫ ω, quadAt wx wy (fun a : Fin b => (X a ω, Y a ω)) ^ 2 ∂P := integral_nonneg fun ω => sq_nonneg _
  exact ⟨Real.sqrt (∫ ω, quadAt wx wy (fun a : Fin b => (X a ω, Y a ω)) ^ 2 ∂P), Real.sqrt_pos.2 (lt_of_le_of_ne h0 (Ne.symm hv)), (Real.sq_sqrt h0).symm, hmean⟩

theorem empVar_meas {W : ℕ → Ω → ℝ} (hm : ∀ t, Measurable (W t)) (N : ℕ) : Measurable fun ω => (∑ i ∈ Finset.range N, (W i ω - (∑ j ∈ Finset.range N, W j ω) / N) ^ 2) / N :=
  (Finset.measurable_fun_sum _ fun i _ => (((hm i).sub ((Finset.measurable_fun_sum _ fun j _ => hm j).div_const _)).pow_const 2)).div_const _

/-- C187. With the method 'permutation', the block test rejects independent variables as often as its level says, in the limit. -/
theorem c187_level {wx wy : ℝ} (hwx : 0 < wx) (hwy : 0 < wy) {X : ℕ → Ω → Fin d → ℝ} {Y : ℕ → Ω → Fin e → ℝ} (h : DrawnPairs P X Y) (hi : IndepFun (X 0) (Y 0) P) (hb : 4 ≤ b)
    (hv : Var[fun ω => (uStat (gaussianWidth wx (upto X b ω)) (gaussianWidth wy (upto Y b ω))).1.getD 0; P] ≠ 0) (perm : ℕ → Equiv.Perm (Fin b)) {α z : ℝ}
    (hz : Fisher.normCdf z = 1 - α) : Tendsto (fun N : ℕ => P.real {ω | ∃ p : ℝ,
      blockTest .permutation false b (N * b) (gaussianWidth wx) (gaussianWidth wy) (fun s => X s ω) (fun s => Y s ω) perm = .ok (.val p) ∧ p ≤ α}) atTop (𝓝 α) := by
  obtain ⟨σ, hσ, h1, h0⟩ := sigma hwx hwy h hi hb hv
  have hb' : (0 : ℝ) < b := by exact_mod_cast (by omega : 0 < b)
  have hV : 0 < (b : ℝ) ^ 2 * σ ^ 2 := by positivity
  have e : ∀ (N : ℕ) ω, nullVar .permutation b (N * b) (gaussianWidth wx) (gaussianWidth wy) (fun s => X s ω) (fun s => Y s ω) perm =
      (b : ℝ) ^ 2 * ((∑ i ∈ Finset.range N, (shuffled wx wy X Y perm i ω - (∑ j ∈ Finset.range N, shuffled wx wy X Y perm j ω) / N) ^ 2) / N) := fun N ω => by
    have hdiv : N * b / b = N := Nat.mul_div_cancel _ (by omega)
    unfold nullVar
    simp only [hdiv]
    rfl
  have := reject_limit hwx hwy h hi hb hσ h1 hV (method := .permutation) (by decide) perm (fun N => by
    simp only [e]
    exact (empVar_meas (shuffled_meas wx wy h perm) N).const_mul _) (by
    simp only [e]
    filter_upwards [var_limit (shuffled_meas wx wy h perm) (shuffled_indep wx wy h perm) (shuffled_ident wx wy h hi perm) (fun t ω => quadAt_bound hwx.le hwy.le hb _) h0] with ω hω
    rw [← h1]
    exact hω.const_mul _) hz
  have er : b * σ / Real.sqrt ((b : ℝ) ^ 2 * σ ^ 2) = 1 := by
    rw [← mul_pow, Real.sqrt_sq (by positivity), div_self (by positivity)]
  rw [er, div_one, hz, sub_sub_cancel] at this
  exact this

/-- C187. With the method 'across', it rejects them as often as a test of the level `1 - Φ(z / b)`: more often than the level `α < 1 / 2` says, by an amount that does not go away with more data. -/
theorem c187_across_false {wx wy : ℝ} (hwx : 0 < wx) (hwy : 0 < wy) {X : ℕ → Ω → Fin d → ℝ} {Y : ℕ → Ω → Fin e → ℝ} (h : DrawnPairs P X Y) (hi : IndepFun (X 0) (Y 0) P) (hb : 4 ≤ b)
    (hv : Var[fun ω => (uStat (gaussianWidth wx (upto X b ω)) (gaussianWidth wy (upto Y b ω))).1.getD 0; P] ≠ 0) (perm : ℕ → Equiv.Perm (Fin b)) {α z : ℝ}
    (hz : Fisher.normCdf z = 1 - α) : Tendsto (fun N : ℕ => P.real {ω | ∃ p : ℝ,
      blockTest .across false b (N * b) (gaussianWidth wx) (gaussianWidth wy) (fun s => X s ω) (fun s => Y s ω) perm = .ok (.val p) ∧ p ≤ α}) atTop (𝓝 (1 - Fisher.normCdf (z / b))) ∧
      (α < 1 / 2 → α < 1 - Fisher.normCdf (z / b)) := by
  obtain ⟨σ, hσ, h1, h0⟩ := sigma hwx hwy h hi hb hv
  have hb4 : (4 : ℝ) ≤ b := by exact_mod_cast hb
  have hb' : (0 : ℝ) < b := by linarith
  have hV : 0 < σ ^ 2 := by positivity
  have e : ∀ (N : ℕ) ω, nullVar .across b (N * b) (gaussianWidth wx) (gaussianWidth wy) (fun s => X s ω) (fun s => Y s ω) perm =
      (∑ i ∈ Finset.range N, (shuffled wx wy X Y (fun _ => (1 : Equiv.Perm (Fin b))) i ω - (∑ j ∈ Finset.range N, shuffled wx wy X Y (fun _ => (1 : Equiv.Perm (Fin b))) j ω) / N) ^ 2) / N :=
    fun N ω => by
      have hdiv : N * b / b = N := Nat.mul_div_cancel _ (by omega)
      unfold nullVar
      simp only [hdiv]
      rfl
  refine ⟨?_, fun hα => ?_⟩
  · have := reject_limit hwx hwy h hi hb hσ h1 hV (method := .across) (by decide) perm (fun N => by
      simp only [e]
      exact empVar_meas (shuffled_meas wx wy h _) N) (by
      simp only [e]
      rw [← h1]
      exact var_limit (shuffled_meas wx wy h _) (shuffled_indep wx wy h _) (shuffled_ident wx wy h hi _) (fun t ω => quadAt_bound hwx.le hwy.le hb _) h0) hz
    rw [Real.sqrt_sq hσ.le, mul_div_cancel_right₀ _ hσ.ne'] at this
    exact this
  · have hz0 : 0 < z := Fisher.normCdf_strictMono.lt_iff_lt.1 (by rw [Fisher.normCdf_zero, hz]; linarith)
    have := Fisher.normCdf_strictMono (div_lt_self hz0 (by linarith : (1 : ℝ) < b))
    linarith

end drawn

section examples

theorem quad_ex (ε : ℝ) : quad (m := 4) (fun i j => if (i.val < 2 ↔ j.val < 2) then 1 else ε) (fun i j => if (i.val < 2 ↔ j.val < 2) then 1 else ε) = 2 / 3 * (1 - ε) ^ 2 := by
  unfold quad
  simp [Fin.sum_univ_four]
  ring

theorem quadAt_continuous (wx wy : ℝ) : Continuous (quadAt (b := b) (d := d) (e := e) wx wy) := by
  unfold quadAt quad gaussianWidth sqDist
  refine Continuous.div_const (continuous_finsetSum _ fun i _ => continuous_finsetSum _ fun j _ => continuous_finsetSum _ fun q _ => continuous_finsetSum _ fun r _ => ?_) _
  split
  · fun_prop
  · fun_prop

/-- Independent normal variables, whose statistic of four rows is not constant. -/
theorem exSpread : ∃ (Ω : Type) (_ : MeasurableSpace Ω) (P : Measure Ω) (_ : IsProbabilityMeasure P) (X Y : ℕ → Ω → Fin 1 → ℝ),
    DrawnPairs P X Y ∧ IndepFun (X 0) (Y 0) P ∧ Var[fun ω => (uStat (gaussianWidth 1 (upto X 4 ω)) (gaussianWidth 1 (upto Y 4 ω))).1.getD 0; P] ≠ 0 := by
  obtain ⟨Ω, mΩ, P, E, hm, hl, hi, hP⟩ := exists_iid ℕ (Measure.pi fun _ : Fin 2 => gaussianReal 0 1)
  have hD : DrawnPairs P (fun s ω (_ : Fin 1) => E s ω 0) (fun s ω (_ : Fin 1) => E s ω 1) := by
   refine ⟨fun s => ?_, fun s => ?_, ?_, fun s => ?_⟩
   · exact measurable_pi_lambda _ fun _ => (measurable_pi_apply 0).comp (hm s)
   · exact measurable_pi_lambda _ fun _ => (measurable_pi_apply 1).comp (hm s)
   · exact hi.comp (fun _ (x : Fin 2 → ℝ) => ((fun _ => x 0 : Fin 1 → ℝ), (fun _ => x 1 : Fin 1 → ℝ))) fun _ => by fun_prop
   · have : IdentDistrib (E s) (E 0) P P := ⟨(hm s).aemeasurable, (hm 0).aemeasurable, by rw [(hl s).map_eq, (hl 0).map_eq]⟩
     exact this.comp (u := fun (x : Fin 2 → ℝ) => ((fun _ => x 0 : Fin 1 → ℝ), (fun _ => x 1 : Fin 1 → ℝ))) (by fun_prop)
  have hI : IndepFun (fun ω (_ : Fin 1) => E 0 ω 0) (fun ω (_ : Fin 1) => E 0 ω 1) P := by
    have h1 : iIndepFun (fun i (x : Fin 2 → ℝ) => x i) (Measure.pi fun _ : Fin 2 => gaussianReal 0 1) :=
      iIndepFun_pi (X := fun _ x => x) fun _ => aemeasurable_id
    rw [← (hl 0).map_eq] at h1
    have h2 := (h1.indepFun (i := 0) (j := 1) (by decide))
    have h3 : IndepFun (fun ω => E 0 ω 0) (fun ω => E 0 ω 1) P := by
      rw [indepFun_iff_measure_inter_preimage_eq_mul] at h2 ⊢
      intro s t hs ht
      have := h2 s t hs ht
      rw [Measure.map_apply (hm 0) (((measurable_pi_apply 0) hs).inter ((measurable_pi_apply 1) ht)), Measure.map_apply (hm 0) ((measurable_pi_apply 0) hs),
        Measure.map_apply (hm 0) ((measurable_pi_apply 1) ht)] at this
      exact this
    exact h3.comp (φ := fun x (_ : Fin 1) => x) (ψ := fun x (_ : Fin 1) => x) (by fun_prop) (by fun_prop)
  refine ⟨Ω, mΩ, P, hP, _, _, hD, hI, fun hv => ?_⟩
  obtain ⟨g, hg⟩ : ∃ g : (Fin 4 → Fin 2 → ℝ) → ℝ, g = fun w => quadAt 1 1 fun a : Fin 4 => ((fun _ => w a 0 : Fin 1 → ℝ), (fun _ => w a 1 : Fin 1 → ℝ)) := ⟨_, rfl⟩
  have hgc : Continuous g := by
    rw [hg]
    exact (quadAt_continuous 1 1).comp (by fun_prop)
  have hgU : (fun ω => (uStat (gaussianWidth 1 (upto (fun s ω (_ : Fin 1) => E s ω 0) 4 ω)) (gaussianWidth 1 (upto (fun s ω (_ : Fin 1) => E s ω 1) 4 ω))).1.getD 0) =
      fun ω => g fun a : Fin 4 => E a ω := by
    funext ω
    rw [c144_tuples le_rfl (width_symm 1 _) (width_symm 1 _), hg]
    rfl
  have hEm : Measurable fun ω (a : Fin 4) => E a ω := measurable_pi_lambda _ fun a => hm a
  have hmean : ∫ ω, g (fun a : Fin 4 => E a ω) ∂P = 0 := by
    rw [hg]
    refine (quad_mean zero_le_one zero_le_one hD le_rfl (f := fun a : Fin 4 => (a : ℕ)) Fin.val_injective).trans ?_
    obtain ⟨D, -, h3, h4⟩ := theta one_pos one_pos hD
    rw [h4, h3.2 hI]
  rw [hgU] at hv
  have hz := ae_eq_integral_of_variance_eq_zero (MemLp.of_bound (hgc.measurable.comp hEm).aestronglyMeasurable 4 (Eventually.of_forall fun ω => by
    rw [Real.norm_eq_abs, Function.comp, hg]
    exact quadAt_bound zero_le_one zero_le_one le_rfl _)) hv
  have hlaw : P.map (fun ω (a : Fin 4) => E a ω) = Measure.pi fun _ : Fin 4 => Measure.pi fun _ : Fin 2 => gaussianReal 0 1 := by
    have := (iIndepFun_iff_map_fun_eq_pi_map fun a : Fin 4 => (hm a).aemeasurable).1 (hi.precomp (g := fun a : Fin 4 => (a : ℕ)) Fin.val_injective)
    simp only [(hl _).map_eq] at this
    exact this
  have hop : (gaussianReal 0 1).IsOpenPosMeasure := (gaussianReal_absolutelyContinuous' 0 one_ne_zero).isOpenPosMeasure
  have hop2 : (Measure.pi fun _ : Fin 2 => gaussianReal 0 1).IsOpenPosMeasure := inferInstance
  have hop4 : (Measure.pi fun _ : Fin 4 => Measure.pi fun _ : Fin 2 => gaussianReal 0 1).IsOpenPosMeasure := Measure.pi.isOpenPosMeasure _
  have hO : IsOpen {w | g w ≠ 0} := isOpen_ne_fun hgc continuous_const
  have hne : {w | g w ≠ 0}.Nonempty := by
    refine ⟨fun a _ => if a.val < 2 then 0 else 1, ?_⟩
    have hK : gaussianWidth 1 (fun (a : Fin 4) (_ : Fin 1) => if a.val < 2 then (0 : ℝ) else 1) = fun i j => if (i.val < 2 ↔ j.val < 2) then 1 else Real.exp (-(1 / 2)) := by
      funext i j
      unfold gaussianWidth sqDist
      by_cases h1 : i.val < 2 <;> by_cases h2 : j.val < 2 <;> simp [h1, h2]
    rw [hg]
    change quad (gaussianWidth 1 (fun (a : Fin 4) (_ : Fin 1) => if a.val < 2 then (0 : ℝ) else 1)) (gaussianWidth 1 (fun (a : Fin 4) (_ : Fin 1) => if a.val < 2 then (0 : ℝ) else 1)) ≠ 0
    rw [hK, quad_ex]
    have : Real.exp (-(1 / 2)) < 1 := by
      rw [← Real.exp_zero]
      exact Real.exp_lt_exp.2 (by norm_num)
    have : 0 < 1 - Real.exp (-(1 / 2)) := by linarith
    positivity
  have hpos := hO.measure_pos (Measure.pi fun _ : Fin 4 => Measure.pi fun _ : Fin 2 => gaussianReal 0 1) hne
  rw [← hlaw, Measure.map_apply hEm hO.measurableSet] at hpos
  refine hpos.ne' (ae_iff.1 ?_ )
  filter_upwards [hz] with ω hω
  exact hω.trans hmean

example : ∃ (Ω : Type) (_ : MeasurableSpace Ω) (P : Measure Ω) (X Y : ℕ → Ω → Fin 1 → ℝ),
    Tendsto (fun N : ℕ => P.real {ω | ∃ p : ℝ, blockTest .permutation false 4 (N * 4) (gaussianWidth 1) (gaussianWidth 1) (fun s => X s ω) (fun s => Y s ω) (fun _ => Equiv.swap 0 1) =
      .ok (.val p) ∧ p ≤ 1 - Fisher.normCdf 2}) atTop (𝓝 (1 - Fisher.normCdf 2)) ∧
    Tendsto (fun N : ℕ => P.real {ω | ∃ p : ℝ, blockTest .across false 4 (N * 4) (gaussianWidth 1) (gaussianWidth 1) (fun s => X s ω) (fun s => Y s ω) (fun _ => Equiv.swap 0 1) =
      .ok (.val p) ∧ p ≤ 1 - Fisher.normCdf 2}) atTop (𝓝 (1 - Fisher.normCdf (2 / (4 : ℕ)))) := by
  obtain ⟨Ω, mΩ, P, hP, X, Y, h, hi, hv⟩ := exSpread
  exact ⟨Ω, mΩ, P, X, Y, c187_level one_pos one_pos h hi le_rfl hv _ (sub_sub_cancel _ _).symm, (c187_across_false one_pos one_pos h hi le_rfl hv _ (sub_sub_cancel _ _).symm).1⟩

end examples

end Cdmir.BlockLevel
