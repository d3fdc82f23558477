import Verif.Props.UnbiasedMean
import Verif.Props.HsicBlock

/-! C186: the U statistic is unbiased, and the block test of HSICBlockTestObject.py finds every dependence. -/

namespace Cdmir.BlockPower
open BigOperators KTest HsicTest ShuffleTest NullMean UnbiasedMean MeasureTheory ProbabilityTheory Filter
open scoped Topology

variable {n d e b : Nat}

theorem count_tuples (hn : 4 ≤ n) (c : ℝ) :
    (∑ i : Fin n, ∑ j : Fin n, ∑ q : Fin n, ∑ r : Fin n, if i ≠ j ∧ q ≠ i ∧ q ≠ j ∧ r ≠ i ∧ r ≠ j ∧ r ≠ q then c else 0) / (n * (n - 1) * (n - 2) * (n - 3)) = c := by
  obtain ⟨a0, a1, a2, a3⟩ := den_ne hn
  have h3 : ∀ i j q : Fin n, (∑ r : Fin n, if i ≠ j ∧ q ≠ i ∧ q ≠ j ∧ r ≠ i ∧ r ≠ j ∧ r ≠ q then c else 0) = if i ≠ j ∧ q ≠ i ∧ q ≠ j then ((n : ℝ) - 3) * c else 0 := fun i j q => by
    by_cases h : i ≠ j ∧ q ≠ i ∧ q ≠ j
    · rw [if_pos h]
      have : ∀ r, (if i ≠ j ∧ q ≠ i ∧ q ≠ j ∧ r ≠ i ∧ r ≠ j ∧ r ≠ q then c else 0) = if r ≠ i ∧ r ≠ j ∧ r ≠ q then c else 0 := fun r => by
        simp only [h.1, h.2.1, h.2.2, ne_eq, not_false_eq_true, true_and]
      rw [Finset.sum_congr rfl fun r _ => this r, sum_three h.1 h.2.1 h.2.2]
      simp only [Finset.sum_const, Finset.card_univ, Fintype.card_fin, nsmul_eq_mul]
      ring
    · rw [if_neg h]
      exact Finset.sum_eq_zero fun r _ => if_neg fun hh => h ⟨hh.1, hh.2.1, hh.2.2.1⟩
  have h2 : ∀ i j : Fin n, (∑ q : Fin n, if i ≠ j ∧ q ≠ i ∧ q ≠ j then ((n : ℝ) - 3) * c else 0) = if i ≠ j then ((n : ℝ) - 2) * (((n : ℝ) - 3) * c) else 0 := fun i j => by
    by_cases h : i ≠ j
    · rw [if_pos h]
      have : ∀ q, (if i ≠ j ∧ q ≠ i ∧ q ≠ j then ((n : ℝ) - 3) * c else 0) = if q ≠ i ∧ q ≠ j then ((n : ℝ) - 3) * c else 0 := fun q => by
        simp only [h, ne_eq, not_false_eq_true, true_and]
      rw [Finset.sum_congr rfl fun q _ => this q, sum_two h]
      simp only [Finset.sum_const, Finset.card_univ, Fintype.card_fin, nsmul_eq_mul]
      ring
    · rw [if_neg h]
      exact Finset.sum_eq_zero fun r _ => if_neg fun hh => h hh.1
  have h1 : ∀ i : Fin n, (∑ j : Fin n, if i ≠ j then ((n : ℝ) - 2) * (((n : ℝ) - 3) * c) else 0) = ((n : ℝ) - 1) * (((n : ℝ) - 2) * (((n : ℝ) - 3) * c)) := fun i => by
    simp only [ne_eq, ite_not]
    rw [sum_off i]
    simp only [Finset.sum_const, Finset.card_univ, Fintype.card_fin, nsmul_eq_mul]
    ring
  simp only [h3, h2, h1, Finset.sum_const, Finset.card_univ, Fintype.card_fin, nsmul_eq_mul]
  field_simp

theorem abs_sum {ι : Type} [Fintype ι] {f g : ι → ℝ} (h : ∀ i, |f i| ≤ g i) : |∑ i, f i| ≤ ∑ i, g i :=
  (Finset.abs_sum_le_sum_abs _ _).trans (Finset.sum_le_sum fun i _ => h i)

theorem quad_bound (hn : 4 ≤ n) {K L : Mat n} (hK : ∀ i j, |K i j| ≤ 1) (hL : ∀ i j, |L i j| ≤ 1) : |quad K L| ≤ 4 := by
  have hn' : (4 : ℝ) ≤ n := by exact_mod_cast hn
  have hp : (0 : ℝ) < n * (n - 1) * (n - 2) * (n - 3) := mul_pos (mul_pos (mul_pos (by linarith) (by linarith)) (by linarith)) (by linarith)
  rw [← count_tuples hn 4]
  unfold quad
  rw [abs_div, abs_of_pos hp]
  refine div_le_div_of_nonneg_right (abs_sum fun i => abs_sum fun j => abs_sum fun q => abs_sum fun r => ?_) hp.le
  split
  · rw [abs_mul]
    have h1 := hK i j
    have h5 : |L i j + L q r - 2 * L i q| ≤ 4 := by
      have h2 := hL i j
      have h3 := hL q r
      have h4 := hL i q
      rw [abs_le] at *
      constructor <;> linarith
    have := mul_le_mul h1 h5 (abs_nonneg _) zero_le_one
    linarith
  · simp

/-- One term of the statistic, for four records. -/
noncomputable def term (wx wy : ℝ) (z : Fin 4 → (Fin d → ℝ) × (Fin e → ℝ)) : ℝ :=
  gaussianWidth wx (fun a => (z a).1) 0 1 * (gaussianWidth wy (fun a => (z a).2) 0 1 + gaussianWidth wy (fun a => (z a).2) 2 3 - 2 * gaussianWidth wy (fun a => (z a).2) 0 2)

theorem term_meas (wx wy : ℝ) : Measurable (term (d := d) (e := e) wx wy) := by
  unfold term gaussianWidth sqDist
  fun_prop

theorem term_bound {wx wy : ℝ} (hwx : 0 ≤ wx) (hwy : 0 ≤ wy) (z : Fin 4 → (Fin d → ℝ) × (Fin e → ℝ)) : |term wx wy z| ≤ 4 := by
  have h1 := gaussianWidth_le wx hwx (fun a => (z a).1) 0 1
  have h2 := gaussianWidth_le wy hwy (fun a => (z a).2) 0 1
  have h3 := gaussianWidth_le wy hwy (fun a => (z a).2) 2 3
  have h4 := gaussianWidth_le wy hwy (fun a => (z a).2) 0 2
  unfold term
  rw [abs_mul]
  have h5 : |gaussianWidth wy (fun a => (z a).2) 0 1 + gaussianWidth wy (fun a => (z a).2) 2 3 - 2 * gaussianWidth wy (fun a => (z a).2) 0 2| ≤ 4 := by
    rw [abs_le] at *
    constructor <;> linarith
  have := mul_le_mul h1 h5 (abs_nonneg _) zero_le_one
  linarith

section drawn
variable {Ω : Type} [MeasurableSpace Ω] {P : Measure Ω} [IsProbabilityMeasure P]

theorem tuple_law {ι : Type} [Fintype ι] {X : ℕ → Ω → Fin d → ℝ} {Y : ℕ → Ω → Fin e → ℝ} (h : DrawnPairs P X Y) {f : ι → ℕ} (hf : Function.Injective f) :
    P.map (fun ω a => (X (f a) ω, Y (f a) ω)) = Measure.pi fun _ : ι => P.map fun ω => (X 0 ω, Y 0 ω) := by
  have := (iIndepFun_iff_map_fun_eq_pi_map fun a : ι => ((h.measX (f a)).prodMk (h.measY (f a))).aemeasurable).1 (h.indep.precomp hf)
  simp only [(h.ident _).map_eq] at this
  exact this

omit [IsProbabilityMeasure P] in
theorem tuple_meas {ι : Type} {X : ℕ → Ω → Fin d → ℝ} {Y : ℕ → Ω → Fin e → ℝ} (h : DrawnPairs P X Y) (f : ι → ℕ) : Measurable fun ω a => (X (f a) ω, Y (f a) ω) :=
  measurable_pi_lambda _ fun _ => (h.measX _).prodMk (h.measY _)

theorem term_mean (wx wy : ℝ) {X : ℕ → Ω → Fin d → ℝ} {Y : ℕ → Ω → Fin e → ℝ} (h : DrawnPairs P X Y) {f : Fin 4 → ℕ} (hf : Function.Injective f) :
    ∫ ω, term wx wy (fun a => (X (f a) ω, Y (f a) ω)) ∂P = ∫ ω, term wx wy (fun a : Fin 4 => (X a ω, Y a ω)) ∂P := by
  rw [← integral_map (φ := fun ω a => (X (f a) ω, Y (f a) ω)) (tuple_meas h f).aemeasurable (term_meas wx wy).aestronglyMeasurable, tuple_law h hf,
    ← integral_map (φ := fun ω (a : Fin 4) => (X a ω, Y a ω)) (tuple_meas h fun a : Fin 4 => (a : ℕ)).aemeasurable (term_meas wx wy).aestronglyMeasurable,
    tuple_law h (f := fun a : Fin 4 => (a : ℕ)) Fin.val_injective]

/-- The statistic of the rows `s 0`, …, of the records. -/
noncomputable def quadAt (wx wy : ℝ) (z : Fin b → (Fin d → ℝ) × (Fin e → ℝ)) : ℝ := quad (gaussianWidth wx fun a => (z a).1) (gaussianWidth wy fun a => (z a).2)

theorem quadAt_meas (wx wy : ℝ) : Measurable (quadAt (b := b) (d := d) (e := e) wx wy) := by
  have hx : ∀ i j, Measurable fun z : Fin b → (Fin d → ℝ) × (Fin e → ℝ) => gaussianWidth wx (fun a => (z a).1) i j := fun i j => by
    unfold gaussianWidth sqDist
    fun_prop
  have hy : ∀ i j, Measurable fun z : Fin b → (Fin d → ℝ) × (Fin e → ℝ) => gaussianWidth wy (fun a => (z a).2) i j := fun i j => by
    unfold gaussianWidth sqDist
    fun_prop
  unfold quadAt quad
  refine Measurable.div_const ?_ _
  refine Finset.measurable_fun_sum _ fun i _ => Finset.measurable_fun_sum _ fun j _ => Finset.measurable_fun_sum _ fun q _ => Finset.measurable_fun_sum _ fun r _ => ?_
  split
  · exact (hx i j).mul (((hy i j).add (hy q r)).sub ((hy i q).const_mul 2))
  · exact measurable_const

/-- The mean of the statistic does not depend on the number of rows. -/
theorem quad_mean {wx wy : ℝ} (hwx : 0 ≤ wx) (hwy : 0 ≤ wy) {X : ℕ → Ω → Fin d → ℝ} {Y : ℕ → Ω → Fin e → ℝ} (h : DrawnPairs P X Y) (hb : 4 ≤ b) {f : Fin b → ℕ}
    (hf : Function.Injective f) :
    ∫ ω, quadAt wx wy (fun a => (X (f a) ω, Y (f a) ω)) ∂P = ∫ ω, term wx wy (fun a : Fin 4 => (X a ω, Y a ω)) ∂P := by
  obtain ⟨θ, hθ⟩ : ∃ θ, θ = ∫ ω, term wx wy (fun a : Fin 4 => (X a ω, Y a ω)) ∂P := ⟨_, rfl⟩
  have hterm : ∀ (i j q r : Fin b) ω, gaussianWidth wx (fun a => X (f a) ω) i j * (gaussianWidth wy (fun a => Y (f a) ω) i j + gaussianWidth wy (fun a => Y (f a) ω) q r -
      2 * gaussianWidth wy (fun a => Y (f a) ω) i q) = term wx wy fun a => (X (f (![i, j, q, r] a)) ω, Y (f (![i, j, q, r] a)) ω) := fun i j q r ω => rfl
  have hti : ∀ g : Fin 4 → ℕ, Integrable (fun ω => term wx wy fun a => (X (g a) ω, Y (g a) ω)) P := fun g =>
    Integrable.of_bound ((term_meas wx wy).comp (tuple_meas h g)).aestronglyMeasurable 4 (Eventually.of_forall fun ω => by
      rw [Real.norm_eq_abs]; exact term_bound hwx hwy _)
  have hint : ∀ i j q r : Fin b, Integrable (fun ω => if i ≠ j ∧ q ≠ i ∧ q ≠ j ∧ r ≠ i ∧ r ≠ j ∧ r ≠ q then gaussianWidth wx (fun a => X (f a) ω) i j *
      (gaussianWidth wy (fun a => Y (f a) ω) i j + gaussianWidth wy (fun a => Y (f a) ω) q r - 2 * gaussianWidth wy (fun a => Y (f a) ω) i q) else 0) P := fun i j q r => by
    split
    · simp only [hterm]
      exact hti fun a => f (![i, j, q, r] a)
    · exact integrable_zero _ _ _
  have hval : ∀ i j q r : Fin b, ∫ ω, (if i ≠ j ∧ q ≠ i ∧ q ≠ j ∧ r ≠ i ∧ r ≠ j ∧ r ≠ q then gaussianWidth wx (fun a => X (f a) ω) i j *
      (gaussianWidth wy (fun a => Y (f a) ω) i j + gaussianWidth wy (fun a => Y (f a) ω) q r - 2 * gaussianWidth wy (fun a => Y (f a) ω) i q) else 0) ∂P =
      if i ≠ j ∧ q ≠ i ∧ q ≠ j ∧ r ≠ i ∧ r ≠ j ∧ r ≠ q then θ else 0 := fun i j q r => by
    split
    · rename_i hd
      simp only [hterm]
      rw [hθ]
      refine term_mean wx wy h (f := fun a => f (![i, j, q, r] a)) (hf.comp ?_)
      obtain ⟨h1, h2, h3, h4, h5, h6⟩ := hd
      intro x y hxy
      fin_cases x <;> fin_cases y <;> simp_all
    · exact integral_zero _ _
  rw [← hθ, ← count_tuples hb θ]
  unfold quadAt quad
  rw [integral_div]
  congr 1
  rw [integral_finsetSum _ fun i _ => integrable_finsetSum _ fun j _ => integrable_finsetSum _ fun q _ => integrable_finsetSum _ fun r _ => hint i j q r]
  refine Finset.sum_congr rfl fun i _ => ?_
  rw [integral_finsetSum _ fun j _ => integrable_finsetSum _ fun q _ => integrable_finsetSum _ fun r _ => hint i j q r]
  refine Finset.sum_congr rfl fun j _ => ?_
  rw [integral_finsetSum _ fun q _ => integrable_finsetSum _ fun r _ => hint i j q r]
  refine Finset.sum_congr rfl fun q _ => ?_
  rw [integral_finsetSum _ fun r _ => hint i j q r]
  exact Finset.sum_congr rfl fun r _ => hval i j q r

theorem width_symm {m d : Nat} (w : ℝ) (x : Data m d) : (gaussianWidth w x).IsSymm := by
  ext i j
  exact gaussianWidth_symm w _ j i

theorem quadAt_bound {wx wy : ℝ} (hwx : 0 ≤ wx) (hwy : 0 ≤ wy) (hb : 4 ≤ b) (z : Fin b → (Fin d → ℝ) × (Fin e → ℝ)) : |quadAt wx wy z| ≤ 4 :=
  quad_bound hb (gaussianWidth_le wx hwx _) (gaussianWidth_le wy hwy _)

/-- The mean of one term is the limit of the V statistic. -/
theorem theta {wx wy : ℝ} (hwx : 0 < wx) (hwy : 0 < wy) {X : ℕ → Ω → Fin d → ℝ} {Y : ℕ → Ω → Fin e → ℝ} (h : DrawnPairs P X Y) :
    ∃ D : ℝ, 0 ≤ D ∧ (D = 0 ↔ IndepFun (X 0) (Y 0) P) ∧ ∫ ω, term wx wy (fun a : Fin 4 => (X a ω, Y a ω)) ∂P = D := by
  obtain ⟨D, hD0, hD, hl⟩ := c178_vstat hwx hwy h
  refine ⟨D, hD0, hD, ?_⟩
  have hlim : ∀ᵐ ω ∂P, Tendsto (fun N : ℕ => quadAt wx wy (fun a : Fin N => (X a ω, Y a ω))) atTop (𝓝 D) := by
    filter_upwards [hl] with ω hω
    have hg : Tendsto (fun N : ℕ => quadAt wx wy (fun a : Fin N => (X a ω, Y a ω)) - vStat (gaussianWidth wx (upto X N ω)) (gaussianWidth wy (upto Y N ω)) / (N : ℝ) ^ 2) atTop (𝓝 0) := by
      refine squeeze_zero_norm' ?_ gap_tendsto
      filter_upwards [eventually_ge_atTop 4] with N hN
      obtain ⟨u, hu, hle⟩ := u_near hN (width_symm wx (upto X N ω)) (width_symm wy (upto Y N ω)) (gaussianWidth_le wx hwx.le _) (gaussianWidth_le wy hwy.le _)
      rw [c144_tuples hN (width_symm wx (upto X N ω)) (width_symm wy (upto Y N ω))] at hu
      rw [Real.norm_eq_abs, ← Option.some.inj hu] at *
      exact hle
    have := hg.add hω
    simpa using this
  have hint : Tendsto (fun N : ℕ => ∫ ω, quadAt wx wy (fun a : Fin N => (X a ω, Y a ω)) ∂P) atTop (𝓝 (∫ _, D ∂P)) := by
    refine tendsto_integral_filter_of_dominated_convergence (fun _ => 4) (Eventually.of_forall fun N => ?_) ?_ (integrable_const _) hlim
    · exact ((quadAt_meas wx wy).comp (tuple_meas h fun a : Fin N => (a : ℕ))).aestronglyMeasurable
    · filter_upwards [eventually_ge_atTop 4] with N hN
      exact Eventually.of_forall fun ω => by rw [Real.norm_eq_abs]; exact quadAt_bound hwx.le hwy.le hN _
  have hconst : Tendsto (fun N : ℕ => ∫ ω, quadAt wx wy (fun a : Fin N => (X a ω, Y a ω)) ∂P) atTop (𝓝 (∫ ω, term wx wy (fun a : Fin 4 => (X a ω, Y a ω)) ∂P)) := by
    refine tendsto_const_nhds.congr' ?_
    filter_upwards [eventually_ge_atTop 4] with N hN
    exact (quad_mean hwx.le hwy.le h hN (f := fun a : Fin N => (a : ℕ)) Fin.val_injective).symm
  rw [integral_const, probReal_univ, one_smul] at hint
  exact tendsto_nhds_unique hconst hint

/-- C186. The U statistic is unbiased: for every number of rows from four on, its mean is one number, which is zero exactly under independence. -/
theorem c186_unbiased {wx wy : ℝ} (hwx : 0 < wx) (hwy : 0 < wy) {X : ℕ → Ω → Fin d → ℝ} {Y : ℕ → Ω → Fin e → ℝ} (h : DrawnPairs P X Y) :
    ∃ D : ℝ, 0 ≤ D ∧ (D = 0 ↔ IndepFun (X 0) (Y 0) P) ∧ ∀ N : ℕ, 4 ≤ N → ∃ u : Ω → ℝ,
      (∀ ω, (uStat (gaussianWidth wx (upto X N ω)) (gaussianWidth wy (upto Y N ω))).1 = some (u ω)) ∧ Integrable u P ∧ ∫ ω, u ω ∂P = D := by
  obtain ⟨D, h0, h1, h2⟩ := theta hwx hwy h
  refine ⟨D, h0, h1, fun N hN => ⟨fun ω => quadAt wx wy (fun a : Fin N => (X a ω, Y a ω)), fun ω => c144_tuples hN (width_symm wx _) (width_symm wy _), ?_, ?_⟩⟩
  · exact Integrable.of_bound ((quadAt_meas wx wy).comp (tuple_meas h fun a : Fin N => (a : ℕ))).aestronglyMeasurable 4 (Eventually.of_forall fun ω => by
      rw [Real.norm_eq_abs]; exact quadAt_bound hwx.le hwy.le hN _)
  · rw [← h2]
    exact quad_mean hwx.le hwy.le h hN (f := fun a : Fin N => (a : ℕ)) Fin.val_injective

theorem block_inj (t : ℕ) : Function.Injective fun a : Fin b => t * b + (a : ℕ) := fun x y hxy => Fin.ext (by simpa using hxy)

theorem block_limit {wx wy : ℝ} (hwx : 0 < wx) (hwy : 0 < wy) {X : ℕ → Ω → Fin d → ℝ} {Y : ℕ → Ω → Fin e → ℝ} (h : DrawnPairs P X Y) (hb : 4 ≤ b) :
    ∀ᵐ ω ∂P, Tendsto (fun N : ℕ => (∑ t ∈ Finset.range N, quadAt wx wy (fun a : Fin b => (X (t * b + a) ω, Y (t * b + a) ω))) / N) atTop
      (𝓝 (∫ ω, term wx wy (fun a : Fin 4 => (X a ω, Y a ω)) ∂P)) := by
  obtain ⟨S, hS⟩ : ∃ S : ℕ → Ω → ℝ, S = fun t ω => quadAt wx wy (fun a : Fin b => (X (t * b + a) ω, Y (t * b + a) ω)) := ⟨_, rfl⟩
  have hmt : ∀ t, Measurable fun ω (a : Fin b) => (X (t * b + a) ω, Y (t * b + a) ω) := fun t => tuple_meas h fun a : Fin b => t * b + (a : ℕ)
  have hid : ∀ t, IdentDistrib (S t) (S 0) P P := fun t => by
    rw [hS]
    have : IdentDistrib (fun ω (a : Fin b) => (X (t * b + a) ω, Y (t * b + a) ω)) (fun ω (a : Fin b) => (X (0 * b + a) ω, Y (0 * b + a) ω)) P P :=
      ⟨(hmt t).aemeasurable, (hmt 0).aemeasurable, (tuple_law h (block_inj t)).trans (tuple_law h (block_inj 0)).symm⟩
    exact this.comp (quadAt_meas wx wy)
  have hind : Pairwise fun s t => IndepFun (S s) (S t) P := fun s t hst => by
    obtain ⟨I, hI⟩ : ∃ I : ℕ → Finset ℕ, I = fun t => Finset.univ.image fun a : Fin b => t * b + (a : ℕ) := ⟨_, rfl⟩
    have hm : ∀ t (a : Fin b), t * b + (a : ℕ) ∈ I t := fun t a => by rw [hI]; exact Finset.mem_image_of_mem _ (Finset.mem_univ a)
    have hq : ∀ t k, k ∈ I t → k / b = t := fun t k hk => by
      rw [hI] at hk
      obtain ⟨a, -, rfl⟩ := Finset.mem_image.1 hk
      rw [mul_comm, Nat.mul_add_div (by omega), Nat.div_eq_of_lt a.2, add_zero]
    have hdis : Disjoint (I s) (I t) := Finset.disjoint_left.2 fun k h1 h2 => hst ((hq s k h1).symm.trans (hq t k h2))
    have h1 := h.indep.indepFun_finset (I s) (I t) hdis fun i => (h.measX i).prodMk (h.measY i)
    have hφ : ∀ t, Measurable fun z : I t → (Fin d → ℝ) × (Fin e → ℝ) => quadAt wx wy fun a : Fin b => z ⟨t * b + a, hm t a⟩ := fun t =>
      (quadAt_meas wx wy).comp (measurable_pi_lambda _ fun a => measurable_pi_apply _)
    have h2 := h1.comp (hφ s) (hφ t)
    rw [hS]
    exact h2
  have hint : Integrable (S 0) P := by
    rw [hS]
    exact Integrable.of_bound ((quadAt_meas wx wy).comp (hmt 0)).aestronglyMeasurable 4 (Eventually.of_forall fun ω => by
      rw [Real.norm_eq_abs]; exact quadAt_bound hwx.le hwy.le hb _)
  have hmean : ∫ ω, S 0 ω ∂P = ∫ ω, term wx wy (fun a : Fin 4 => (X a ω, Y a ω)) ∂P := by
    rw [hS]
    exact quad_mean hwx.le hwy.le h hb (block_inj 0)
  have hl := strong_law_ae_real S hint hind hid
  rw [hmean] at hl
  rw [hS] at hl
  exact hl

end drawn

theorem avg_le {f : ℕ → ℝ} (hf : ∀ i, |f i| ≤ 4) (N : ℕ) : |(∑ i ∈ Finset.range N, f i) / N| ≤ 4 := by
  rcases Nat.eq_zero_or_pos N with rfl | hN
  · simp
  · have hN' : (0 : ℝ) < N := by exact_mod_cast hN
    rw [abs_div, abs_of_pos hN', div_le_iff₀ hN']
    refine (Finset.abs_sum_le_sum_abs _ _).trans ((Finset.sum_le_sum fun i _ => hf i).trans (le_of_eq ?_))
    simp [mul_comm]

theorem var_le {f : ℕ → ℝ} (hf : ∀ i, |f i| ≤ 4) (N : ℕ) : (∑ i ∈ Finset.range N, (f i - (∑ j ∈ Finset.range N, f j) / N) ^ 2) / N ≤ 64 := by
  rcases Nat.eq_zero_or_pos N with rfl | hN
  · simp
  · have hN' : (0 : ℝ) < N := by exact_mod_cast hN
    rw [div_le_iff₀ hN']
    have h1 := avg_le hf N
    refine (Finset.sum_le_sum fun i _ => (?_ : _ ≤ (64 : ℝ))).trans (le_of_eq (by simp [mul_comm]))
    have h2 := hf i
    rw [abs_le] at h1 h2
    nlinarith [h1.1, h1.2, h2.1, h2.2]

theorem nullVar_le (hb : 4 ≤ b) {wx wy : ℝ} (hwx : 0 ≤ wx) (hwy : 0 ≤ wy) (method : NullVar) (x : ℕ → Fin d → ℝ) (y : ℕ → Fin e → ℝ) (perm : ℕ → Equiv.Perm (Fin b)) :
    nullVar method b n (gaussianWidth wx) (gaussianWidth wy) x y perm ≤ 64 * (b : ℝ) ^ 2 + 128 := by
  have hb0 : (0 : ℝ) ≤ (b : ℝ) ^ 2 := sq_nonneg _
  have q : ∀ {K L : Mat b}, (∀ i j, |K i j| ≤ 1) → (∀ i j, |L i j| ≤ 1) → |quad K L| ≤ 4 := fun h h' => quad_bound hb h h'
  have kx := fun (x : Data b d) => gaussianWidth_le wx hwx x
  have ky := fun (y : Data b e) => gaussianWidth_le wy hwy y
  have hu : ∀ t, |quad (gaussianWidth wx (block x b t)) (gaussianWidth wy (block y b t))| ≤ 4 := fun t => q (kx _) (ky _)
  unfold nullVar
  cases method with
  | permutation =>
    have := var_le (fun t => q (kx (block x b t)) fun i j => ky (block y b t) (perm t i) (perm t j) : ∀ t, |quad (gaussianWidth wx (block x b t)) (shuffle (perm t) (gaussianWidth wy (block y b t)))| ≤ 4) (n / b)
    have := mul_le_mul_of_nonneg_left this hb0
    simp only
    linarith
  | direct =>
    have h1 := avg_le (fun t => q (kx (block x b t)) (kx (block x b t))) (n / b)
    have h2 := avg_le (fun t => q (ky (block y b t)) (ky (block y b t))) (n / b)
    have h3 := mul_le_mul h1 h2 (abs_nonneg _) (by norm_num)
    rw [← abs_mul] at h3
    have := (le_abs_self _).trans h3
    simp only
    rw [mul_assoc]
    linarith
  | across =>
    have := var_le hu (n / b)
    simp only
    linarith
  | other =>
    have := var_le hu (n / b)
    simp only
    linarith

section power
variable {Ω : Type} [MeasurableSpace Ω] {P : Measure Ω} [IsProbabilityMeasure P]

/-- C186. The block test finds every dependence: with blocks of a fixed length from four on, any of its three methods and any drawn permutations, the p-value tends to zero with
probability one. -/
theorem c186_power {wx wy : ℝ} (hwx : 0 < wx) (hwy : 0 < wy) {X : ℕ → Ω → Fin d → ℝ} {Y : ℕ → Ω → Fin e → ℝ} (h : DrawnPairs P X Y) (hdep : ¬ IndepFun (X 0) (Y 0) P) (hb : 4 ≤ b) :
    ∀ᵐ ω ∂P, ∀ method : NullVar, method ≠ .other → ∀ perm : ℕ → Equiv.Perm (Fin b), ∃ p : ℕ → ℝ,
      (∀ᶠ n in atTop, blockTest method false b n (gaussianWidth wx) (gaussianWidth wy) (fun s => X s ω) (fun s => Y s ω) perm = .ok (.val (p n))) ∧ Tendsto p atTop (𝓝 0) := by
  obtain ⟨D, hD0, hD, hθ⟩ := theta hwx hwy h
  have hDpos : 0 < D := lt_of_le_of_ne hD0 fun h0 => hdep (hD.1 h0.symm)
  have hbpos : (0 : ℝ) < b := by exact_mod_cast (by omega : 0 < b)
  filter_upwards [block_limit hwx hwy h hb] with ω hω method hm perm
  rw [hθ] at hω
  obtain ⟨s, hs⟩ : ∃ s : ℕ → ℝ, s = fun n => (∑ i ∈ Finset.range (n / b), quad (gaussianWidth wx (block (fun s => X s ω) b i)) (gaussianWidth wy (block (fun s => Y s ω) b i))) / ((n / b : ℕ) : ℝ) := ⟨_, rfl⟩
  obtain ⟨v, hv⟩ : ∃ v : ℕ → ℝ, v = fun n => nullVar method b n (gaussianWidth wx) (gaussianWidth wy) (fun s => X s ω) (fun s => Y s ω) perm := ⟨_, rfl⟩
  have hsl : Tendsto s atTop (𝓝 D) := by
    rw [hs]
    exact hω.comp (Nat.tendsto_div_const_atTop (by omega : b ≠ 0))
  obtain ⟨M, hM⟩ : ∃ M : ℝ, M = 64 * (b : ℝ) ^ 2 + 128 := ⟨_, rfl⟩
  have hMpos : 0 < M := by rw [hM]; positivity
  have hvM : ∀ n, v n ≤ M := fun n => by rw [hv, hM]; exact nullVar_le hb hwx.le hwy.le _ _ _ _
  have key : ∀ n, b ≤ n → _ := fun n hn => c147_value (X := fun s => X s ω) (Y := fun s => Y s ω) (perm := perm) hb hn (fun x => width_symm (d := d) wx x) (fun y => width_symm (d := e) wy y) hm
    (s := s n) (v := v n) (by rw [hs]) (by rw [hv])
  refine ⟨fun n => if v n = 0 then 0 else 1 - Fisher.normCdf (Real.sqrt (n * b) * s n / Real.sqrt (v n)), ?_, ?_⟩
  · filter_upwards [hsl.eventually (lt_mem_nhds hDpos), eventually_ge_atTop b] with n h1 h2
    obtain ⟨k1, k2, k3⟩ := key n h2
    by_cases h0 : v n = 0
    · rw [k3 h0, if_neg h1.ne', if_pos h1, if_pos h0]
    · rw [k2 (lt_of_le_of_ne k1 (Ne.symm h0)), if_neg h0]
  · have hup : Tendsto (fun n : ℕ => 1 - Fisher.normCdf (Real.sqrt (n * b) * (D / 2 / Real.sqrt M))) atTop (𝓝 0) := by
      have h1 : Tendsto (fun n : ℕ => Real.sqrt (n * b) * (D / 2 / Real.sqrt M)) atTop atTop :=
        (Real.tendsto_sqrt_atTop.comp ((tendsto_natCast_atTop_atTop (R := ℝ)).atTop_mul_const hbpos)).atTop_mul_const (by have := Real.sqrt_pos.2 hMpos; positivity)
      have := (Fisher.normCdf_tendsto.comp h1).const_sub 1
      simpa using this
    refine tendsto_of_tendsto_of_tendsto_of_le_of_le' tendsto_const_nhds hup (Eventually.of_forall fun n => ?_) ?_
    · split
      · exact le_rfl
      · exact sub_nonneg.2 (Fisher.normCdf_le_one _)
    · filter_upwards [hsl.eventually (lt_mem_nhds (by linarith : D / 2 < D)), eventually_ge_atTop b] with n h1 h2
      split
      · exact sub_nonneg.2 (Fisher.normCdf_le_one _)
      · rename_i h0
        have hvp : 0 < v n := lt_of_le_of_ne (key n h2).1 (Ne.symm h0)
        refine sub_le_sub_left (Fisher.normCdf_strictMono.monotone ?_) 1
        rw [mul_div_assoc]
        refine mul_le_mul_of_nonneg_left ?_ (Real.sqrt_nonneg _)
        exact div_le_div₀ (by linarith) h1.le (Real.sqrt_pos.2 hvp) (Real.sqrt_le_sqrt (hvM n))

end power

section examples

/-- Dependent normal variables meet the hypotheses. -/
example : ∃ (Ω : Type) (_ : MeasurableSpace Ω) (P : Measure Ω) (X Y : ℕ → Ω → Fin 1 → ℝ), ∀ᵐ ω ∂P, ∃ p : ℕ → ℝ,
    (∀ᶠ n in atTop, blockTest .permutation false 50 n (gaussianWidth 1) (gaussianWidth 1) (fun s => X s ω) (fun s => Y s ω) (fun _ => Equiv.swap 0 1) = .ok (.val (p n))) ∧ Tendsto p atTop (𝓝 0) := by
  obtain ⟨Ω, mΩ, P, hP, X, Y, h, -, -, hd⟩ := exPairs
  refine ⟨Ω, mΩ, P, X, Y, ?_⟩
  filter_upwards [c186_power one_pos one_pos h hd (b := 50) (by norm_num)] with ω hω
  exact hω .permutation (by decide) _

example : ∃ (Ω : Type) (_ : MeasurableSpace Ω) (P : Measure Ω) (X Y : ℕ → Ω → Fin 1 → ℝ) (u : Ω → ℝ),
    (∀ ω, (uStat (gaussianWidth 1 (upto X 4 ω)) (gaussianWidth 2 (upto Y 4 ω))).1 = some (u ω)) ∧ 0 < ∫ ω, u ω ∂P := by
  obtain ⟨Ω, mΩ, P, hP, X, Y, h, -, -, hd⟩ := exPairs
  obtain ⟨D, h0, h1, h2⟩ := c186_unbiased one_pos two_pos h
  obtain ⟨u, a, -, c⟩ := h2 4 le_rfl
  exact ⟨Ω, mΩ, P, X, Y, u, a, c ▸ lt_of_le_of_ne h0 fun e => hd (h1.1 e.symm)⟩

end examples

end Cdmir.BlockPower
