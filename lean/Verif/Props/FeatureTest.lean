import Verif.Props.SpectralTest
import Mathlib.Probability.Moments.Covariance

/-! C182: the spectral test of HSICSpectralTestObject.py with random features on drawn records. It finds the dependences that show in a covariance of two features,
and with enough random frequencies every dependence. -/

namespace Cdmir.FeatureTest
open BigOperators KTest HsicTest ShuffleTest SpectralTest MeasureTheory ProbabilityTheory Filter
open scoped Topology

variable {n d e p q : Nat}

/-- The table of features of a sample. -/
noncomputable def feat (f : Fin p → (Fin d → ℝ) → ℝ) (X : Data n d) : Matrix (Fin n) (Fin p) ℝ := Matrix.of fun i k => f k (X i)

theorem centred_mul (hn : n ≠ 0) (a : Matrix (Fin n) (Fin p) ℝ) (b : Matrix (Fin n) (Fin q) ℝ) (k : Fin p) (l : Fin q) :
    ((centred a).transpose * centred b) k l / n = (∑ i, a i k * b i l) / n - (∑ i, a i k) / n * ((∑ i, b i l) / n) := by
  have hn' : (n : ℝ) ≠ 0 := by exact_mod_cast hn
  rw [Matrix.mul_apply]
  have e : ∀ i, (centred a).transpose k i * centred b i l = a i k * b i l - (∑ t, a t k) / n * b i l - a i k * ((∑ t, b t l) / n) + (∑ t, a t k) / n * ((∑ t, b t l) / n) := fun i => by
    simp only [Matrix.transpose_apply, centred, Matrix.of_apply]
    ring
  simp only [e, Finset.sum_add_distrib, Finset.sum_sub_distrib, ← Finset.mul_sum, ← Finset.sum_mul, Finset.sum_const, Finset.card_univ, Fintype.card_fin, nsmul_eq_mul]
  field_simp
  ring

theorem cov_psd (hn : 1 ≤ n) (a : Matrix (Fin n) (Fin p) ℝ) : (cov a).PosSemidef := by
  unfold cov
  have h : ((centred a).transpose * centred a).PosSemidef := by
    have := Matrix.posSemidef_conjTranspose_mul_self (centred a)
    rwa [Matrix.conjTranspose_eq_transpose_of_trivial] at this
  refine h.smul ?_
  have : (1 : ℝ) ≤ n := by exact_mod_cast hn
  exact inv_nonneg.2 (by linarith)

theorem cov_trace (hn : 2 ≤ n) (a : Matrix (Fin n) (Fin p) ℝ) {B : ℝ} (hB : ∀ i k, |a i k| ≤ B) : (cov a).trace ≤ 2 * p * B ^ 2 := by
  have hn' : (2 : ℝ) ≤ n := by exact_mod_cast hn
  have hd : ∀ k, cov a k k ≤ 2 * B ^ 2 := fun k => by
    have h1 := centred_mul (by omega) a a k k
    have h2 : (∑ i, a i k * a i k) / n ≤ B ^ 2 := by
      rw [div_le_iff₀ (by linarith)]
      refine (Finset.sum_le_sum fun i _ => (?_ : a i k * a i k ≤ B ^ 2)).trans (by simp [mul_comm])
      rw [← pow_two, ← sq_abs]
      exact pow_le_pow_left₀ (abs_nonneg _) (hB i k) 2
    have h3 : ((centred a).transpose * centred a) k k / n ≤ B ^ 2 := by
      rw [h1]
      nlinarith [mul_self_nonneg ((∑ i, a i k) / n)]
    rw [div_le_iff₀ (by linarith)] at h3
    unfold cov
    rw [Matrix.smul_apply, smul_eq_mul, inv_mul_le_iff₀ (by linarith)]
    nlinarith [sq_nonneg B]
  unfold Matrix.trace
  refine (Finset.sum_le_sum fun k _ => hd k).trans (le_of_eq ?_)
  simp only [Finset.sum_const, Finset.card_univ, Fintype.card_fin, nsmul_eq_mul]
  ring

section drawn
variable {Ω Ω' : Type} [MeasurableSpace Ω] [MeasurableSpace Ω'] {P : Measure Ω} [IsProbabilityMeasure P] {Q : Measure Ω'} [IsProbabilityMeasure Q]

theorem mean_limit {X : ℕ → Ω → Fin d → ℝ} {Y : ℕ → Ω → Fin e → ℝ} (h : DrawnPairs P X Y) {u : (Fin d → ℝ) × (Fin e → ℝ) → ℝ} (hu : Measurable u) {C : ℝ} (hC : ∀ z, |u z| ≤ C) :
    ∀ᵐ ω ∂P, Tendsto (fun N : ℕ => (∑ i : Fin N, u (X i ω, Y i ω)) / N) atTop (𝓝 (∫ ω, u (X 0 ω, Y 0 ω) ∂P)) := by
  have h1 := strong_law_ae_real (fun s ω => u (X s ω, Y s ω)) (μ := P)
    ((integrable_const C).mono' (hu.comp ((h.measX 0).prodMk (h.measY 0))).aestronglyMeasurable (Eventually.of_forall fun ω => hC _))
    (fun i j hij => (h.indep.indepFun hij).comp hu hu) fun s => (h.ident s).comp hu
  filter_upwards [h1] with ω hω
  refine hω.congr fun N => ?_
  rw [Fin.sum_univ_eq_sum_range fun s => u (X s ω, Y s ω)]

/-- C182. The statistic tends to the sum of the squared covariances of the features. -/
theorem c182_limit {f : Fin p → (Fin d → ℝ) → ℝ} {g : Fin q → (Fin e → ℝ) → ℝ} (hf : ∀ k, Measurable (f k)) (hg : ∀ l, Measurable (g l)) {B : ℝ} (hfB : ∀ k x, |f k x| ≤ B)
    (hgB : ∀ l y, |g l y| ≤ B) {X : ℕ → Ω → Fin d → ℝ} {Y : ℕ → Ω → Fin e → ℝ} (h : DrawnPairs P X Y) :
    ∀ᵐ ω ∂P, ∃ v : ℕ → ℝ, (∀ N, N ≠ 0 → vStatRff (feat f (upto X N ω)) (feat g (upto Y N ω)) = some (v N)) ∧
      Tendsto v atTop (𝓝 (∑ k, ∑ l, cov[fun ω => f k (X 0 ω), fun ω => g l (Y 0 ω); P] ^ 2)) := by
  have hmf : ∀ k, MemLp (fun ω => f k (X 0 ω)) 2 P := fun k =>
    MemLp.of_bound ((hf k).comp (h.measX 0)).aestronglyMeasurable B (Eventually.of_forall fun ω => hfB k _)
  have hmg : ∀ l, MemLp (fun ω => g l (Y 0 ω)) 2 P := fun l =>
    MemLp.of_bound ((hg l).comp (h.measY 0)).aestronglyMeasurable B (Eventually.of_forall fun ω => hgB l _)
  have l1 := ae_all_iff.2 fun k => mean_limit h (u := fun z => f k z.1) ((hf k).comp measurable_fst) (fun z => hfB k z.1)
  have l2 := ae_all_iff.2 fun l => mean_limit h (u := fun z => g l z.2) ((hg l).comp measurable_snd) (fun z => hgB l z.2)
  have l3 := ae_all_iff.2 fun k => ae_all_iff.2 fun l => mean_limit h (u := fun z => f k z.1 * g l z.2) (((hf k).comp measurable_fst).mul ((hg l).comp measurable_snd)) (C := B * B)
    fun z => by rw [abs_mul]; exact mul_le_mul (hfB k _) (hgB l _) (abs_nonneg _) ((abs_nonneg _).trans (hfB k z.1))
  filter_upwards [l1, l2, l3] with ω h1 h2 h3
  refine ⟨fun N => ∑ k, ∑ l, ((∑ i : Fin N, f k (X i ω) * g l (Y i ω)) / N - (∑ i : Fin N, f k (X i ω)) / N * ((∑ i : Fin N, g l (Y i ω)) / N)) ^ 2, fun N hN => ?_, ?_⟩
  · unfold vStatRff
    rw [if_neg hN]
    simp only [centred_mul hN]
    rfl
  · refine tendsto_finsetSum _ fun k _ => tendsto_finsetSum _ fun l _ => ?_
    rw [covariance_eq_sub (hmf k) (hmg l)]
    exact ((h3 k l).sub ((h1 k).mul (h2 l))).pow 2

/-- C182. If two features have a covariance that is not zero then, with probability one over the records, the probability over the draws that the p-value is the least
possible tends to one, for every number of draws. -/
theorem c182_power {ev : (k : Nat) → Matrix (Fin k) (Fin k) ℝ → List ℝ} (hev : EigvalsCorrect ev) {f : Fin p → (Fin d → ℝ) → ℝ} {g : Fin q → (Fin e → ℝ) → ℝ}
    (hf : ∀ k, Measurable (f k)) (hg : ∀ l, Measurable (g l)) {B : ℝ} (hfB : ∀ k x, |f k x| ≤ B) (hgB : ∀ l y, |g l y| ≤ B) {X : ℕ → Ω → Fin d → ℝ} {Y : ℕ → Ω → Fin e → ℝ}
    (h : DrawnPairs P X Y) {k : Fin p} {l : Fin q} (hkl : cov[fun ω => f k (X 0 ω), fun ω => g l (Y 0 ω); P] ≠ 0) {z : ℕ → Ω' → ℕ → ℕ → ℝ} (hz : ∀ k, Normal Q (z k)) :
    ∀ᵐ ω ∂P, ∀ m : ℕ, Tendsto (fun N : ℕ => Q.real {ω' | spectralTestRff ev false (List.ofFn fun k : Fin m => z k ω') (feat f (upto X N ω)) (feat g (upto Y N ω)) =
      .ok (1 / (1 + (m : ℝ)))}) atTop (𝓝 1) := by
  obtain ⟨D, hD⟩ : ∃ D, D = ∑ k, ∑ l, cov[fun ω => f k (X 0 ω), fun ω => g l (Y 0 ω); P] ^ 2 := ⟨_, rfl⟩
  have hDpos : 0 < D := by
    rw [hD]
    refine Finset.sum_pos' (fun k _ => Finset.sum_nonneg fun l _ => sq_nonneg _) ⟨k, Finset.mem_univ k, ?_⟩
    exact Finset.sum_pos' (fun l _ => sq_nonneg _) ⟨l, Finset.mem_univ l, by positivity⟩
  filter_upwards [c182_limit hf hg hfB hgB h] with ω hω m
  obtain ⟨v, hv, hvl⟩ := hω
  rw [← hD] at hvl
  obtain ⟨M, hM⟩ : ∃ M, M = 2 * (2 * p * B ^ 2 * (2 * q * B ^ 2)) / D := ⟨_, rfl⟩
  have hlow : Tendsto (fun N : ℕ => 1 - m * (M / N)) atTop (𝓝 1) := by
    have := ((Tendsto.const_div_atTop (tendsto_natCast_atTop_atTop (R := ℝ)) M).const_mul (m : ℝ)).const_sub 1
    simpa using this
  refine tendsto_of_tendsto_of_tendsto_of_le_of_le' hlow tendsto_const_nhds ?_ (Eventually.of_forall fun N => measureReal_le_one)
  filter_upwards [hvl.eventually (lt_mem_nhds (by linarith : D / 2 < D)), eventually_ge_atTop 2] with N a1 a2
  have hN : (2 : ℝ) ≤ N := by exact_mod_cast a2
  obtain ⟨K, hK⟩ : ∃ K, K = feat f (upto X N ω) := ⟨_, rfl⟩
  obtain ⟨L, hL⟩ : ∃ L, L = feat g (upto Y N ω) := ⟨_, rfl⟩
  have hst := hv N (by omega)
  rw [← hK, ← hL] at hst ⊢
  have tK := cov_trace a2 K (B := B) fun i k => by rw [hK]; exact hfB k _
  have tL := cov_trace a2 L (B := B) fun i k => by rw [hL]; exact hgB k _
  have pL := (cov_psd (by omega) L).trace_nonneg
  obtain ⟨-, px, sx, -⟩ := eigvals_ok hev (cov_psd (by omega) K)
  obtain ⟨-, py, sy, -⟩ := eigvals_ok hev (cov_psd (by omega) L)
  obtain ⟨lx, hlx⟩ : ∃ lx, lx = ev p (cov K) := ⟨_, rfl⟩
  obtain ⟨ly, hly⟩ : ∃ ly, ly = ev q (cov L) := ⟨_, rfl⟩
  rw [← hlx] at px sx
  rw [← hly] at py sy
  have htest : ∀ draws, spectralTestRff ev false draws K L = .ok (shareAbove (draws.map fun z => some (nullSample false lx ly z)) (some (N * v N))) := fun draws => by
    unfold spectralTestRff withShufflesRff
    simp only [Bool.false_eq_true, if_false, hlx, hly, hst]
    rfl
  obtain ⟨T, hT⟩ : ∃ T, T = (N : ℝ) * v N := ⟨_, rfl⟩
  have hTge : D / 2 * N ≤ T := by
    rw [hT, mul_comm]
    exact mul_le_mul_of_nonneg_left a1.le (by linarith)
  have hone : ∀ k, Q.real {ω' | T < nullSample false lx ly (z k ω')} ≤ M / N := fun k => by
    obtain ⟨i1, i2⟩ := null_mean lx ly (hz k)
    have hnn : ∀ ω', 0 ≤ nullSample false lx ly (z k ω') := fun ω' => by
      rw [c146_sample]
      refine Finset.sum_nonneg fun i _ => Finset.sum_nonneg fun j _ => mul_nonneg (mul_nonneg (px _ (List.getElem_mem _)) (py _ (List.getElem_mem _))) ?_
      simp only [Bool.false_eq_true, if_false]
      positivity
    have h1 := mul_meas_ge_le_integral_of_nonneg (Eventually.of_forall hnn) i1 T
    rw [i2, sx, sy] at h1
    have h2 : Q.real {ω' | T < nullSample false lx ly (z k ω')} ≤ Q.real {ω' | T ≤ nullSample false lx ly (z k ω')} := measureReal_mono fun ω' (h : T < _) => show T ≤ _ from h.le
    have h3 : (cov K).trace * (cov L).trace ≤ 2 * p * B ^ 2 * (2 * q * B ^ 2) := mul_le_mul tK tL pL (by positivity)
    refine h2.trans ?_
    have h4 : D / 2 * N * Q.real {ω' | T ≤ nullSample false lx ly (z k ω')} ≤ 2 * p * B ^ 2 * (2 * q * B ^ 2) :=
      (mul_le_mul_of_nonneg_right hTge measureReal_nonneg).trans (h1.trans h3)
    rw [hM, div_div, le_div_iff₀ (by positivity)]
    linarith
  have hB' : MeasurableSet (⋂ k : Fin m, {ω' | nullSample false lx ly (z k ω') ≤ T}) :=
    MeasurableSet.iInter fun k => measurableSet_le (null_meas false lx ly (hz k)) measurable_const
  have hsub : (⋂ k : Fin m, {ω' | nullSample false lx ly (z k ω') ≤ T}) ⊆ {ω' | spectralTestRff ev false (List.ofFn fun k : Fin m => z k ω') K L = .ok (1 / (1 + (m : ℝ)))} := fun ω' h => by
    rw [Set.mem_iInter] at h
    rw [Set.mem_ofPred_eq, htest, share_least]
    · simp
    · intro x hx
      rw [List.mem_map] at hx
      obtain ⟨y, hy, rfl⟩ := hx
      obtain ⟨k, rfl⟩ := List.mem_ofFn.1 hy
      simp only [gt, decide_eq_false_iff_not, not_lt]
      rw [← hT]
      exact h k
  refine le_trans ?_ (measureReal_mono hsub)
  have hc : Q.real (⋂ k : Fin m, {ω' | nullSample false lx ly (z k ω') ≤ T})ᶜ ≤ m * (M / N) := by
    rw [Set.compl_iInter]
    refine (measureReal_iUnion_fintype_le _).trans ?_
    refine (Finset.sum_le_sum fun k _ => ?_).trans (le_of_eq (by simp : ∑ _k : Fin m, (M / N : ℝ) = m * (M / N)))
    refine le_trans (le_of_eq ?_) (hone k)
    congr 1
    ext ω'
    simp
  rw [probReal_compl_eq_one_sub hB'] at hc
  linarith

/-- `t` times `x`. -/
noncomputable def dot (t x : Fin d → ℝ) : ℝ := ∑ k, t k * x k

/-- Dependent variables have frequencies for which one of the four covariances of their cosines and sines is not zero. -/
theorem excess_cov {X : Ω → Fin d → ℝ} {Y : Ω → Fin e → ℝ} (hX : Measurable X) (hY : Measurable Y) {t : Fin d → ℝ} {s : Fin e → ℝ} (h : excess P X Y (t, s) ≠ 0) :
    ∃ u ∈ ({Real.cos, Real.sin} : Set (ℝ → ℝ)), ∃ w ∈ ({Real.cos, Real.sin} : Set (ℝ → ℝ)), cov[fun ω => u (dot t (X ω)), fun ω => w (dot s (Y ω)); P] ≠ 0 := by
  by_contra hno
  push Not at hno
  refine h ?_
  have mX : Measurable fun ω => dot t (X ω) := by unfold dot; fun_prop
  have mY : Measurable fun ω => dot s (Y ω) := by unfold dot; fun_prop
  have hb : ∀ u ∈ ({Real.cos, Real.sin} : Set (ℝ → ℝ)), Measurable u ∧ ∀ x, |u x| ≤ 1 := fun u hu => by
    rcases hu with rfl | rfl
    · exact ⟨Real.measurable_cos, Real.abs_cos_le_one⟩
    · exact ⟨Real.measurable_sin, Real.abs_sin_le_one⟩
  have hc : Real.cos ∈ ({Real.cos, Real.sin} : Set (ℝ → ℝ)) := Or.inl rfl
  have hs : Real.sin ∈ ({Real.cos, Real.sin} : Set (ℝ → ℝ)) := Or.inr rfl
  have hm : ∀ {a : Ω → ℝ}, Measurable a → ∀ u ∈ ({Real.cos, Real.sin} : Set (ℝ → ℝ)), MemLp (fun ω => u (a ω)) 2 P := fun ha u hu =>
    MemLp.of_bound ((hb u hu).1.comp ha).aestronglyMeasurable 1 (Eventually.of_forall fun ω => (hb u hu).2 _)
  have hcov : ∀ u ∈ ({Real.cos, Real.sin} : Set (ℝ → ℝ)), ∀ w ∈ ({Real.cos, Real.sin} : Set (ℝ → ℝ)),
      ∫ ω, u (dot t (X ω)) * w (dot s (Y ω)) ∂P = (∫ ω, u (dot t (X ω)) ∂P) * ∫ ω, w (dot s (Y ω)) ∂P := fun u hu w hw => by
    have h1 := hno u hu w hw
    rw [covariance_eq_sub (hm mX u hu) (hm mY w hw)] at h1
    exact sub_eq_zero.1 h1
  have hw : ∀ {d : Nat} (t x : Fin d → ℝ), wave t x = Complex.exp ((dot t x : ℝ) * Complex.I) := fun t x => rfl
  have hint : ∀ {a : Ω → ℝ}, Measurable a → Integrable (fun ω => Complex.exp ((a ω : ℝ) * Complex.I)) P := fun ha =>
    bounded_integrable (C := 1) (by fun_prop) fun ω => by rw [Complex.norm_exp_ofReal_mul_I]
  have key : ∀ {a : Ω → ℝ}, Measurable a → ∫ ω, Complex.exp ((a ω : ℝ) * Complex.I) ∂P = ⟨∫ ω, Real.cos (a ω) ∂P, ∫ ω, Real.sin (a ω) ∂P⟩ := fun {a} ha => by
    have h1 := Complex.reCLM.integral_comp_comm (hint ha)
    have h2 := Complex.imCLM.integral_comp_comm (hint ha)
    simp only [Complex.reCLM_apply, Complex.imCLM_apply, Complex.exp_ofReal_mul_I_re, Complex.exp_ofReal_mul_I_im] at h1 h2
    exact Complex.ext h1.symm h2.symm
  have ig : ∀ u ∈ ({Real.cos, Real.sin} : Set (ℝ → ℝ)), ∀ w ∈ ({Real.cos, Real.sin} : Set (ℝ → ℝ)), Integrable (fun ω => u (dot t (X ω)) * w (dot s (Y ω))) P := fun u hu w hw =>
    (hm mX u hu).integrable_mul (hm mY w hw)
  have k1 : jointChar P X Y (t, 0) = ∫ ω, Complex.exp ((dot t (X ω) : ℝ) * Complex.I) ∂P := by
    unfold jointChar
    simp only [wave_zero, mul_one]
    rfl
  have k2 : jointChar P X Y (0, s) = ∫ ω, Complex.exp ((dot s (Y ω) : ℝ) * Complex.I) ∂P := by
    unfold jointChar
    simp only [wave_zero, one_mul]
    rfl
  have k3 : jointChar P X Y (t, s) = ∫ ω, Complex.exp (((dot t (X ω) + dot s (Y ω) : ℝ) : ℂ) * Complex.I) ∂P := by
    unfold jointChar
    refine integral_congr_ae (Eventually.of_forall fun ω => ?_)
    simp only [hw, ← Complex.exp_add]
    congr 1
    push_cast
    ring
  unfold excess
  simp only
  rw [k1, k2, k3, key mX, key mY, key (mX.fun_add mY)]
  simp only [Real.cos_add, Real.sin_add]
  rw [integral_sub (ig _ hc _ hc) (ig _ hs _ hs), integral_add (ig _ hs _ hc) (ig _ hc _ hs), hcov _ hc _ hc, hcov _ hs _ hs, hcov _ hs _ hc, hcov _ hc _ hs]
  apply Complex.ext
  · simp
  · simp
    ring

/-- Random features of `h` frequencies: the cosines and then the sines, times a number. -/
noncomputable def waves {h : Nat} (c : ℝ) (t : Fin h → Fin d → ℝ) : Fin (h + h) → (Fin d → ℝ) → ℝ :=
  Fin.append (fun k x => c * Real.cos (dot (t k) x)) fun k x => c * Real.sin (dot (t k) x)

theorem waves_meas {h : Nat} (c : ℝ) (t : Fin h → Fin d → ℝ) (k : Fin (h + h)) : Measurable (waves c t k) ∧ ∀ x, |waves c t k x| ≤ |c| := by
  unfold waves
  refine Fin.addCases (fun k => ?_) (fun k => ?_) k
  · rw [Fin.append_left]
    refine ⟨by unfold dot; fun_prop, fun x => ?_⟩
    rw [abs_mul]
    exact mul_le_of_le_one_right (abs_nonneg _) (Real.abs_cos_le_one _)
  · rw [Fin.append_right]
    refine ⟨by unfold dot; fun_prop, fun x => ?_⟩
    rw [abs_mul]
    exact mul_le_of_le_one_right (abs_nonneg _) (Real.abs_sin_le_one _)

theorem waves_get {h : Nat} (c : ℝ) (t : Fin h → Fin d → ℝ) (k : Fin h) {u : ℝ → ℝ} (hu : u ∈ ({Real.cos, Real.sin} : Set (ℝ → ℝ))) :
    ∃ k', ∀ x, waves c t k' x = c * u (dot (t k) x) := by
  rcases hu with rfl | rfl
  · exact ⟨Fin.castAdd h k, fun x => by rw [waves, Fin.append_left]⟩
  · exact ⟨Fin.natAdd h k, fun x => by rw [waves, Fin.append_right]⟩

/-- C182. With frequencies drawn from a distribution that leaves out no region, if the variables are dependent then with probability one over the frequencies, from some
number of frequencies on, the test finds the dependence as in `c182_power`. -/
theorem c182_frequencies {ev : (k : Nat) → Matrix (Fin k) (Fin k) ℝ → List ℝ} (hev : EigvalsCorrect ev) {X : ℕ → Ω → Fin d → ℝ} {Y : ℕ → Ω → Fin e → ℝ}
    (h : DrawnPairs P X Y) (hdep : ¬ IndepFun (X 0) (Y 0) P) {z : ℕ → Ω' → ℕ → ℕ → ℝ} (hz : ∀ k, Normal Q (z k))
    {Ω₂ : Type} [MeasurableSpace Ω₂] {F : Measure Ω₂} [IsProbabilityMeasure F] {S : ℕ → Ω₂ → Fin d → ℝ} {T : ℕ → Ω₂ → Fin e → ℝ} (hF : DrawnPairs F S T)
    (hopen : ∀ U : Set ((Fin d → ℝ) × (Fin e → ℝ)), IsOpen U → U.Nonempty → 0 < F.real {w | (S 0 w, T 0 w) ∈ U}) :
    ∀ᵐ w ∂F, ∃ h₀ : ℕ, ∀ h ≥ h₀, ∀ c : ℝ, c ≠ 0 → ∀ᵐ ω ∂P, ∀ m : ℕ, Tendsto (fun N : ℕ => Q.real {ω' | spectralTestRff ev false (List.ofFn fun k : Fin m => z k ω')
      (feat (waves c fun k : Fin h => S k w) (upto X N ω)) (feat (waves c fun k : Fin h => T k w) (upto Y N ω)) = .ok (1 / (1 + (m : ℝ)))}) atTop (𝓝 1) := by
  classical
  have hne : ∃ q, excess P (X 0) (Y 0) q ≠ 0 := by
    by_contra hno
    push Not at hno
    exact hdep ((excess_zero (h.measX 0) (h.measY 0)).1 hno)
  obtain ⟨U, hU⟩ : ∃ U, U = {q | excess P (X 0) (Y 0) q ≠ 0} := ⟨_, rfl⟩
  have hUo : IsOpen U := by rw [hU]; exact isOpen_ne_fun (excess_cont (h.measX 0) (h.measY 0)) continuous_const
  have hp := hopen U hUo (by rw [hU]; exact hne)
  have hit : ∀ᵐ w ∂F, ∃ k, (S k w, T k w) ∈ U := by
    have h1 := mean_limit hF (u := U.indicator fun _ => (1 : ℝ)) (measurable_const.indicator hUo.measurableSet) (C := 1) fun z => by
      by_cases hz : z ∈ U <;> simp [hz]
    have h2 : ∫ w, U.indicator (fun _ => (1 : ℝ)) (S 0 w, T 0 w) ∂F = F.real {w | (S 0 w, T 0 w) ∈ U} := by
      have e : (fun w => U.indicator (fun _ => (1 : ℝ)) (S 0 w, T 0 w)) = {w | (S 0 w, T 0 w) ∈ U}.indicator fun _ => (1 : ℝ) := by
        ext w
        by_cases hx : (S 0 w, T 0 w) ∈ U <;> simp [hx]
      rw [e]
      exact (integral_indicator_const (1 : ℝ) (show MeasurableSet {w | (S 0 w, T 0 w) ∈ U} from ((hF.measX 0).prodMk (hF.measY 0)) hUo.measurableSet)).trans (by simp)
    filter_upwards [h1] with w hw
    by_contra hno
    push Not at hno
    rw [h2] at hw
    have h3 : Tendsto (fun N : ℕ => (∑ i : Fin N, U.indicator (fun _ => (1 : ℝ)) (S i w, T i w)) / N) atTop (𝓝 0) := by
      simp [Set.indicator_of_notMem (hno _)]
    exact hp.ne' (tendsto_nhds_unique hw h3)
  filter_upwards [hit] with w hw
  obtain ⟨k, hk⟩ := hw
  refine ⟨k + 1, fun h' hh c hc => ?_⟩
  rw [hU] at hk
  obtain ⟨u, hu, v, hv, huv⟩ := excess_cov (h.measX 0) (h.measY 0) hk
  obtain ⟨a, ha⟩ := waves_get c (fun k : Fin h' => S k w) ⟨k, by omega⟩ hu
  obtain ⟨b, hb⟩ := waves_get c (fun k : Fin h' => T k w) ⟨k, by omega⟩ hv
  refine c182_power hev (fun k => (waves_meas c _ k).1) (fun k => (waves_meas c _ k).1) (B := |c|) (fun k => (waves_meas c _ k).2) (fun k => (waves_meas c _ k).2) h (k := a) (l := b) ?_ hz
  simp only [ha, hb]
  rw [covariance_const_mul_left, covariance_const_mul_right]
  exact mul_ne_zero hc (mul_ne_zero hc huv)

end drawn

section examples

theorem exFreq (d e : Nat) : ∃ (Ω : Type) (_ : MeasurableSpace Ω) (F : Measure Ω) (_ : IsProbabilityMeasure F) (S : ℕ → Ω → Fin d → ℝ) (T : ℕ → Ω → Fin e → ℝ),
    DrawnPairs F S T ∧ ∀ U : Set ((Fin d → ℝ) × (Fin e → ℝ)), IsOpen U → U.Nonempty → 0 < F.real {w | (S 0 w, T 0 w) ∈ U} := by
  obtain ⟨Ω, mΩ, F, E, hm, hl, hi, hF⟩ := exists_iid ℕ ((freq d).prod (freq e))
  refine ⟨Ω, mΩ, F, hF, fun k w => (E k w).1, fun k w => (E k w).2, ⟨fun s => (hm s).fst, fun s => (hm s).snd, hi, fun s => (hl s).identDistrib (hl 0)⟩, fun U hU hne => ?_⟩
  have h1 : F.real {w | E 0 w ∈ U} = ((freq d).prod (freq e)).real U := by
    rw [← (hl 0).map_eq, map_measureReal_apply (hm 0) hU.measurableSet]
    rfl
  show 0 < F.real {w | E 0 w ∈ U}
  rw [h1]
  exact ENNReal.toReal_pos (hU.measure_pos _ hne).ne' (measure_ne_top _ _)

/-- Dependent variables, normal frequencies, 1000 draws. -/
example : ∃ (Ω Ω' Ω₂ : Type) (_ : MeasurableSpace Ω) (_ : MeasurableSpace Ω') (_ : MeasurableSpace Ω₂) (P : Measure Ω) (Q : Measure Ω') (F : Measure Ω₂) (X Y : ℕ → Ω → Fin 1 → ℝ)
    (z : ℕ → Ω' → ℕ → ℕ → ℝ) (S T : ℕ → Ω₂ → Fin 1 → ℝ),
    ∀ᵐ w ∂F, ∃ h₀ : ℕ, ∀ h ≥ h₀, ∀ᵐ ω ∂P, Tendsto (fun N : ℕ => Q.real {ω' | spectralTestRff stdVals false (List.ofFn fun k : Fin 1000 => z k ω')
      (feat (waves 1 fun k : Fin h => S k w) (upto X N ω)) (feat (waves 1 fun k : Fin h => T k w) (upto Y N ω)) = .ok (1 / (1 + 1000))}) atTop (𝓝 1) := by
  obtain ⟨Ω, mΩ, P, hP, X, Y, h, -, -, hd⟩ := exPairs
  obtain ⟨Ω', mΩ', Q, hQ, z, hz⟩ := exDraws
  obtain ⟨Ω₂, mΩ₂, F, hF, S, T, hST, hop⟩ := exFreq 1 1
  refine ⟨Ω, Ω', Ω₂, mΩ, mΩ', mΩ₂, P, Q, F, X, Y, z, S, T, ?_⟩
  filter_upwards [c182_frequencies stdVals_correct h hd hz hST hop] with w hw
  obtain ⟨h₀, hh⟩ := hw
  refine ⟨h₀, fun h' hh' => ?_⟩
  filter_upwards [hh h' hh' 1 one_ne_zero] with ω hω
  exact_mod_cast hω 1000

/-- Dependent variables have a pair of features that shows it, to which `c182_limit` and `c182_power` apply. -/
example : ∃ (Ω Ω' : Type) (_ : MeasurableSpace Ω) (_ : MeasurableSpace Ω') (P : Measure Ω) (Q : Measure Ω') (X Y : ℕ → Ω → Fin 1 → ℝ) (z : ℕ → Ω' → ℕ → ℕ → ℝ)
    (f g : Fin 1 → (Fin 1 → ℝ) → ℝ),
    (∀ᵐ ω ∂P, Tendsto (fun N : ℕ => Q.real {ω' | spectralTestRff stdVals false (List.ofFn fun k : Fin 7 => z k ω') (feat f (upto X N ω)) (feat g (upto Y N ω)) =
      .ok (1 / (1 + 7))}) atTop (𝓝 1)) ∧
    ∃ D > 0, ∀ᵐ ω ∂P, ∃ v : ℕ → ℝ, (∀ N, N ≠ 0 → vStatRff (feat f (upto X N ω)) (feat g (upto Y N ω)) = some (v N)) ∧ Tendsto v atTop (𝓝 D) := by
  obtain ⟨Ω, mΩ, P, hP, X, Y, h, -, -, hd⟩ := exPairs
  obtain ⟨Ω', mΩ', Q, hQ, z, hz⟩ := exDraws
  have hne : ∃ q, excess P (X 0) (Y 0) q ≠ 0 := by
    by_contra hno
    push Not at hno
    exact hd ((excess_zero (h.measX 0) (h.measY 0)).1 hno)
  obtain ⟨⟨t, s⟩, hq⟩ := hne
  obtain ⟨u, hu, w, hw, hc⟩ := excess_cov (h.measX 0) (h.measY 0) hq
  have hb : ∀ u ∈ ({Real.cos, Real.sin} : Set (ℝ → ℝ)), Measurable u ∧ ∀ x, |u x| ≤ 1 := fun u hu => by
    rcases hu with rfl | rfl
    · exact ⟨Real.measurable_cos, Real.abs_cos_le_one⟩
    · exact ⟨Real.measurable_sin, Real.abs_sin_le_one⟩
  have md : ∀ t : Fin 1 → ℝ, Measurable fun x => dot t x := fun t => by unfold dot; fun_prop
  refine ⟨Ω, Ω', mΩ, mΩ', P, Q, X, Y, z, fun _ x => u (dot t x), fun _ y => w (dot s y), ?_, ?_⟩
  · filter_upwards [c182_power stdVals_correct (f := fun (_ : Fin 1) x => u (dot t x)) (g := fun (_ : Fin 1) y => w (dot s y)) (fun _ => (hb u hu).1.comp (md t)) (fun _ => (hb w hw).1.comp (md s)) (fun _ x => (hb u hu).2 _) (fun _ y => (hb w hw).2 _) h (k := 0) (l := 0) hc hz]
      with ω hω
    exact_mod_cast hω 7
  · refine ⟨_, ?_, c182_limit (f := fun _ x => u (dot t x)) (g := fun _ y => w (dot s y)) (fun _ => (hb u hu).1.comp (md t)) (fun _ => (hb w hw).1.comp (md s)) (fun _ x => (hb u hu).2 _)
      (fun _ y => (hb w hw).2 _) h⟩
    simp only [Finset.univ_unique, Finset.sum_const, Finset.card_singleton, one_smul]
    positivity

end examples

end Cdmir.FeatureTest
