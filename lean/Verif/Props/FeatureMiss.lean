import Verif.Props.FeatureTest
import Mathlib.Probability.ProbabilityMassFunction.Integrals
import Mathlib.LinearAlgebra.FiniteDimensional.Lemmas

/-! C182: for every fixed list of features there are dependent variables that these features do not tell from independent ones. -/

namespace Cdmir.FeatureTest
open BigOperators KTest HsicTest MeasureTheory ProbabilityTheory Filter
open scoped Topology ENNReal

/-- Weights on `p + 2` points that sum to zero and are orthogonal to `p` functions. -/
theorem orthogonal {p : Nat} (F : Fin p → Fin (p + 2) → ℝ) : ∃ a : Fin (p + 2) → ℝ, (∃ i, a i ≠ 0) ∧ (∀ i, |a i| ≤ 1) ∧ ∑ i, a i = 0 ∧ ∀ k, ∑ i, a i * F k i = 0 := by
  obtain ⟨M, hM⟩ : ∃ M : Matrix (Option (Fin p)) (Fin (p + 2)) ℝ, M = Matrix.of fun o i => o.elim 1 fun k => F k i := ⟨_, rfl⟩
  have h := LinearMap.ker_ne_bot_of_finrank_lt (f := M.mulVecLin) (by simp)
  obtain ⟨b, hb, hb0⟩ := (Submodule.ne_bot_iff _).1 h
  rw [LinearMap.mem_ker, Matrix.mulVecLin_apply] at hb
  obtain ⟨i, hi⟩ : ∃ i, b i ≠ 0 := by
    by_contra hno
    push Not at hno
    exact hb0 (funext hno)
  have hs : 0 < ∑ i, |b i| := Finset.sum_pos' (fun _ _ => abs_nonneg _) ⟨i, Finset.mem_univ _, abs_pos.2 hi⟩
  refine ⟨fun i => b i / ∑ i, |b i|, ⟨i, div_ne_zero hi hs.ne'⟩, fun j => ?_, ?_, fun k => ?_⟩
  · rw [abs_div, abs_of_pos hs, div_le_one hs]
    exact Finset.single_le_sum (f := fun i => |b i|) (fun _ _ => abs_nonneg _) (Finset.mem_univ j)
  · have := congrFun hb none
    simp only [Matrix.mulVec, dotProduct, hM, Matrix.of_apply, Option.elim, one_mul, Pi.zero_apply] at this
    rw [← Finset.sum_div, this, zero_div]
  · have := congrFun hb (some k)
    simp only [Matrix.mulVec, dotProduct, hM, Matrix.of_apply, Option.elim, Pi.zero_apply] at this
    simp only [div_mul_eq_mul_div, mul_comm (b _)]
    rw [← Finset.sum_div, this, zero_div]

/-- A distribution on pairs with given covariances. -/
theorem tilted {n m : Nat} (hn : n ≠ 0) (hm : m ≠ 0) {a : Fin n → ℝ} {b : Fin m → ℝ} (ha : ∀ i, |a i| ≤ 1) (hb : ∀ j, |b j| ≤ 1) (sa : ∑ i, a i = 0) (sb : ∑ j, b j = 0) :
    ∃ π : PMF (Fin n × Fin m), ∀ (F : Fin n → ℝ) (G : Fin m → ℝ),
      ∫ z, F z.1 * G z.2 ∂π.toMeasure = (∑ i, F i) / n * ((∑ j, G j) / m) + (∑ i, a i * F i) / n * ((∑ j, b j * G j) / m) := by
  have hn' : (n : ℝ) ≠ 0 := by exact_mod_cast hn
  have hm' : (m : ℝ) ≠ 0 := by exact_mod_cast hm
  obtain ⟨w, hw⟩ : ∃ w : Fin n × Fin m → ℝ, w = fun z => (1 + a z.1 * b z.2) / (n * m) := ⟨_, rfl⟩
  have w0 : ∀ z, 0 ≤ w z := fun z => by
    rw [hw]
    have h1 : |a z.1 * b z.2| ≤ 1 := by rw [abs_mul]; exact mul_le_one₀ (ha _) (abs_nonneg _) (hb _)
    have := (abs_le.1 h1).1
    exact div_nonneg (by linarith) (by positivity)
  have wF : ∀ (F : Fin n → ℝ) (G : Fin m → ℝ), ∑ z, w z * (F z.1 * G z.2) = (∑ i, F i) / n * ((∑ j, G j) / m) + (∑ i, a i * F i) / n * ((∑ j, b j * G j) / m) := fun F G => by
    rw [Fintype.sum_prod_type]
    have e : ∀ i j, w (i, j) * (F i * G j) = F i / n * (G j / m) + a i * F i / n * (b j * G j / m) := fun i j => by
      rw [hw]
      field_simp
    simp only [e, Finset.sum_add_distrib, ← Finset.mul_sum, ← Finset.sum_mul, ← Finset.sum_div]
  have w1 : ∑ z, w z = 1 := by
    have := wF (fun _ => 1) (fun _ => 1)
    simp only [mul_one, sa, sb, zero_div, mul_zero, add_zero, Finset.sum_const, Finset.card_univ, Fintype.card_fin, nsmul_eq_mul, div_self hn', div_self hm'] at this
    exact this
  refine ⟨PMF.ofFintype (fun z => ENNReal.ofReal (w z)) (by rw [← ENNReal.ofReal_sum_of_nonneg fun z _ => w0 z, w1, ENNReal.ofReal_one]), fun F G => ?_⟩
  rw [PMF.integral_eq_sum, ← wF]
  refine Finset.sum_congr rfl fun z _ => ?_
  rw [PMF.ofFintype_apply, ENNReal.toReal_ofReal (w0 z), smul_eq_mul]

/-- C182. Expected and false: the test with a fixed list of features finds every dependence. For all features there are dependent variables for which the statistic tends to zero, as it
does for independent ones. -/
theorem c182_fixed_false {p q : Nat} {f : Fin p → (Fin 1 → ℝ) → ℝ} {g : Fin q → (Fin 1 → ℝ) → ℝ} (hf : ∀ k, Measurable (f k)) (hg : ∀ l, Measurable (g l)) {B : ℝ}
    (hfB : ∀ k x, |f k x| ≤ B) (hgB : ∀ l y, |g l y| ≤ B) :
    ∃ (Ω : Type) (_ : MeasurableSpace Ω) (P : Measure Ω) (_ : IsProbabilityMeasure P) (X Y : ℕ → Ω → Fin 1 → ℝ), DrawnPairs P X Y ∧ ¬ IndepFun (X 0) (Y 0) P ∧
      ∀ᵐ ω ∂P, ∃ v : ℕ → ℝ, (∀ N, N ≠ 0 → vStatRff (feat f (upto X N ω)) (feat g (upto Y N ω)) = some (v N)) ∧ Tendsto v atTop (𝓝 0) := by
  classical
  obtain ⟨a, ⟨i₀, hi⟩, ha, sa, fa⟩ := orthogonal fun k (i : Fin (p + 2)) => f k fun _ => (i : ℝ)
  obtain ⟨b, ⟨j₀, hj⟩, hb, sb, gb⟩ := orthogonal fun l (j : Fin (q + 2)) => g l fun _ => (j : ℝ)
  obtain ⟨π, hπ⟩ := tilted (by omega) (by omega) ha hb sa sb
  obtain ⟨Ω, mΩ, P, E, hm, hl, hi', hP⟩ := exists_iid ℕ π.toMeasure
  obtain ⟨x, hx⟩ : ∃ x : Fin (p + 2) → Fin 1 → ℝ, x = fun (i : Fin (p + 2)) _ => (i : ℝ) := ⟨_, rfl⟩
  obtain ⟨y, hy⟩ : ∃ y : Fin (q + 2) → Fin 1 → ℝ, y = fun (i : Fin (q + 2)) _ => (i : ℝ) := ⟨_, rfl⟩
  have hd : DrawnPairs P (fun s ω => x (E s ω).1) (fun s ω => y (E s ω).2) :=
    ⟨fun s => (measurable_of_finite x).comp (hm s).fst, fun s => (measurable_of_finite y).comp (hm s).snd,
      hi'.comp (fun _ (z : Fin (p + 2) × Fin (q + 2)) => (x z.1, y z.2)) fun _ => measurable_of_finite _, fun s => ((hl s).identDistrib (hl 0)).comp (u := fun (z : Fin (p + 2) × Fin (q + 2)) => (x z.1, y z.2)) (measurable_of_finite _)⟩
  have hn : ((p + 2 : ℕ) : ℝ) ≠ 0 := by positivity
  have hq : ((q + 2 : ℕ) : ℝ) ≠ 0 := by positivity
  have key : ∀ (F G : (Fin 1 → ℝ) → ℝ), ∫ ω, F (x (E 0 ω).1) * G (y (E 0 ω).2) ∂P =
      (∑ i, F (x i)) / (p + 2 : ℕ) * ((∑ j, G (y j)) / (q + 2 : ℕ)) + (∑ i, a i * F (x i)) / (p + 2 : ℕ) * ((∑ j, b j * G (y j)) / (q + 2 : ℕ)) := fun F G => by
    rw [← hπ (fun i => F (x i)) fun j => G (y j)]
    exact (hl 0).integral_comp (f := fun z => F (x z.1) * G (y z.2)) (measurable_of_finite _).aestronglyMeasurable
  have keyX : ∀ F : (Fin 1 → ℝ) → ℝ, ∫ ω, F (x (E 0 ω).1) ∂P = (∑ i, F (x i)) / (p + 2 : ℕ) := fun F => by
    have h1 := key F fun _ => 1
    simp only [mul_one, sb, zero_div, mul_zero, add_zero, Finset.sum_const, Finset.card_univ, Fintype.card_fin, nsmul_eq_mul, div_self hq] at h1
    exact h1
  have keyY : ∀ G : (Fin 1 → ℝ) → ℝ, ∫ ω, G (y (E 0 ω).2) ∂P = (∑ j, G (y j)) / (q + 2 : ℕ) := fun G => by
    have h1 := key (fun _ => 1) G
    simp only [one_mul, mul_one, sa, zero_div, zero_mul, add_zero, Finset.sum_const, Finset.card_univ, Fintype.card_fin, nsmul_eq_mul, div_self hn] at h1
    exact h1
  refine ⟨Ω, mΩ, P, hP, _, _, hd, fun hind => ?_, ?_⟩
  · obtain ⟨F, hF⟩ : ∃ F : (Fin 1 → ℝ) → ℝ, F = Set.indicator {x i₀} 1 := ⟨_, rfl⟩
    obtain ⟨G, hG⟩ : ∃ G : (Fin 1 → ℝ) → ℝ, G = Set.indicator {y j₀} 1 := ⟨_, rfl⟩
    have mF : Measurable F := by rw [hF]; exact measurable_one.indicator (measurableSet_singleton _)
    have mG : Measurable G := by rw [hG]; exact measurable_one.indicator (measurableSet_singleton _)
    have h1 := (hind.comp mF mG).integral_fun_mul_eq_mul_integral (mF.comp (hd.measX 0)).aestronglyMeasurable (mG.comp (hd.measY 0)).aestronglyMeasurable
    simp only [Function.comp_def] at h1
    rw [key, keyX, keyY] at h1
    have e1 : ∀ i, F (x i) = if i = i₀ then 1 else 0 := fun i => by
      have : x i = x i₀ ↔ i = i₀ := ⟨fun h => by rw [hx] at h; exact Fin.ext (Nat.cast_injective (R := ℝ) (congrFun h 0)), fun h => by rw [h]⟩
      rw [hF, Set.indicator_apply]
      simp [this]
    have e2 : ∀ j, G (y j) = if j = j₀ then 1 else 0 := fun j => by
      have : y j = y j₀ ↔ j = j₀ := ⟨fun h => by rw [hy] at h; exact Fin.ext (Nat.cast_injective (R := ℝ) (congrFun h 0)), fun h => by rw [h]⟩
      rw [hG, Set.indicator_apply]
      simp [this]
    have h2 : (∑ i, a i * F (x i)) / (p + 2 : ℕ) * ((∑ j, b j * G (y j)) / (q + 2 : ℕ)) = 0 := by linarith
    simp only [e1, e2, mul_ite, mul_one, mul_zero, Finset.sum_ite_eq', Finset.mem_univ, if_true] at h2
    exact mul_ne_zero (div_ne_zero hi hn) (div_ne_zero hj hq) h2
  · have h1 := c182_limit hf hg hfB hgB hd
    have h0 : ∀ k l, cov[fun ω => f k (x (E 0 ω).1), fun ω => g l (y (E 0 ω).2); P] = 0 := fun k l => by
      have m1 : MemLp (fun ω => f k (x (E 0 ω).1)) 2 P := MemLp.of_bound ((hf k).comp (hd.measX 0)).aestronglyMeasurable B (Eventually.of_forall fun ω => hfB k _)
      have m2 : MemLp (fun ω => g l (y (E 0 ω).2)) 2 P := MemLp.of_bound ((hg l).comp (hd.measY 0)).aestronglyMeasurable B (Eventually.of_forall fun ω => hgB l _)
      rw [covariance_eq_sub m1 m2]
      have h2 := key (f k) (g l)
      have h3 := keyX (f k)
      have h4 := keyY (g l)
      have h5 := fa k
      simp only [hx] at h2 h3 ⊢
      rw [h5] at h2
      simp only [Pi.mul_apply]
      rw [h2, h3, h4]
      simp
    simpa [h0] using h1

/-- Ten frequencies on both sides, as in `INtest` with 20 features. -/
example (t s : Fin 10 → Fin 1 → ℝ) :
    ∃ (Ω : Type) (_ : MeasurableSpace Ω) (P : Measure Ω) (_ : IsProbabilityMeasure P) (X Y : ℕ → Ω → Fin 1 → ℝ), DrawnPairs P X Y ∧ ¬ IndepFun (X 0) (Y 0) P ∧
      ∀ᵐ ω ∂P, ∃ v : ℕ → ℝ, (∀ N, N ≠ 0 → vStatRff (feat (waves 1 t) (upto X N ω)) (feat (waves 1 s) (upto Y N ω)) = some (v N)) ∧ Tendsto v atTop (𝓝 0) :=
  c182_fixed_false (fun k => (waves_meas 1 t k).1) (fun k => (waves_meas 1 s k).1) (fun k => (waves_meas 1 t k).2) (fun k => (waves_meas 1 s k).2)

end Cdmir.FeatureTest
