import Verif.Lemmas.Hsic
import Verif.Lemmas.KernelLimit
import Mathlib.MeasureTheory.Measure.Tight
import Mathlib.MeasureTheory.Constructions.BorelSpace.Metric

/-! The median of the squared distances of drawn numbers stays between two positive bounds, and Gaussian kernels of different widths can be compared. Used for C181. -/

namespace Cdmir.MedianWidth
open BigOperators KTest

variable {n : Nat}

section median

theorem take_count {s : List ℝ} {p : ℝ → Bool} {k : Nat} (hk : k ≤ s.length) (h : ∀ i (hi : i < s.length), i < k → p s[i] = true) : k ≤ s.countP p := by
  have h1 : (s.take k).countP p = (s.take k).length := List.countP_eq_length.2 fun a ha => by
    obtain ⟨i, hi, rfl⟩ := List.mem_take_iff_getElem.1 ha
    exact h i (by omega) (by omega)
  have h2 : (s.take k).countP p ≤ s.countP p := (List.take_sublist k s).countP_le
  rw [h1, List.length_take] at h2
  omega

theorem drop_count {s : List ℝ} {p : ℝ → Bool} {k : Nat} (h : ∀ i (hi : i < s.length), k ≤ i → p s[i] = true) : s.length - k ≤ s.countP p := by
  have h1 : (s.drop k).countP p = (s.drop k).length := List.countP_eq_length.2 fun a ha => by
    obtain ⟨i, hi, rfl⟩ := List.mem_drop_iff_getElem.1 ha
    exact h _ (by omega) (by omega)
  have h2 : (s.drop k).countP p ≤ s.countP p := (List.drop_sublist k s).countP_le
  rw [h1, List.length_drop] at h2
  omega

theorem median_between {l : List ℝ} {a b : ℝ} (ha : 2 * l.countP (fun x => decide (x < a)) < l.length) (hb : 2 * l.countP (fun x => decide (b < x)) < l.length) :
    ∃ m, median l = some m ∧ a ≤ m ∧ m ≤ b := by
  obtain ⟨s, hs⟩ : ∃ s, s = l.insertionSort (· ≤ ·) := ⟨_, rfl⟩
  have hp : s.Perm l := by rw [hs]; exact List.perm_insertionSort _ _
  have hlen : s.length = l.length := hp.length_eq
  have hsort : ∀ i j (hi : i < s.length) (hj : j < s.length), i ≤ j → s[i] ≤ s[j] := fun i j hi hj hij => by
    have h := List.pairwise_insertionSort (· ≤ ·) l
    rw [← hs] at h
    rcases hij.eq_or_lt with h0 | h0
    · subst h0; exact le_refl _
    · exact List.pairwise_iff_getElem.1 h i j hi hj h0
  have low : ∀ j, (hj : j < s.length) → l.length ≤ 2 * j + 2 → a ≤ s[j] := fun j hj h => by
    by_contra hlt
    have := take_count (s := s) (p := fun x => decide (x < a)) (k := j + 1) (by omega) fun i hi hij => by
      simpa using (hsort i j hi hj (by omega)).trans_lt (not_le.1 hlt)
    rw [hp.countP_eq] at this
    omega
  have high : ∀ j, (hj : j < s.length) → 2 * j ≤ l.length → s[j] ≤ b := fun j hj h => by
    by_contra hlt
    have := drop_count (s := s) (p := fun x => decide (b < x)) (k := j) fun i hi hij => by
      simpa using (not_le.1 hlt).trans_le (hsort j i hj hi (by omega))
    rw [hp.countP_eq] at this
    omega
  have hget : ∀ j, (hj : j < s.length) → s.getD j 0 = s[j] := fun j hj => by
    rw [List.getD_eq_getElem?_getD, List.getElem?_eq_getElem hj, Option.getD_some]
  have hne : l ≠ [] := by rintro rfl; simp at ha
  unfold median
  simp only
  rw [if_neg hne, ← hs]
  by_cases ho : l.length % 2 = 1
  · rw [if_pos ho]
    refine ⟨_, rfl, ?_⟩
    rw [hget _ (by omega)]
    exact ⟨low _ _ (by omega), high _ _ (by omega)⟩
  · rw [if_neg ho]
    refine ⟨_, rfl, ?_⟩
    rw [hget _ (by omega), hget _ (by omega)]
    have h1 := low (l.length / 2 - 1) (by omega) (by omega)
    have h2 := low (l.length / 2) (by omega) (by omega)
    have h3 := high (l.length / 2 - 1) (by omega) (by omega)
    have h4 := high (l.length / 2) (by omega) (by omega)
    constructor <;> linarith

theorem countP_sum {α : Type*} (l : List α) (f : α → ℝ) (p : ℝ → Bool) : (l.map f).countP p = (l.map fun x => if p (f x) = true then 1 else 0).sum := by
  induction l with
  | nil => rfl
  | cons x l ih =>
    rw [List.map_cons, List.countP_cons, ih, List.map_cons, List.sum_cons, add_comm]

theorem upper_count (D : Fin n → Fin n → ℝ) (p : ℝ → Bool) : (upper D).countP p = ∑ i, ∑ j, if i < j ∧ 0 < D i j ∧ p (D i j) = true then 1 else 0 := by
  unfold upper
  rw [List.countP_filter, List.countP_flatMap, Fin.sum_univ_def]
  congr 1
  refine List.map_congr_left fun i _ => ?_
  rw [Function.comp, countP_sum, Fin.sum_univ_def]
  congr 1
  refine List.map_congr_left fun j _ => ?_
  by_cases h : i < j
  · simp [h, and_comm]
  · simp [h]

theorem upper_twice (D : Fin n → Fin n → ℝ) (hD : ∀ i j, D i j = D j i) (h0 : ∀ i, D i i = 0) (p : ℝ → Bool) :
    2 * (upper D).countP p = (Finset.univ.filter fun q : Fin n × Fin n => 0 < D q.1 q.2 ∧ p (D q.1 q.2) = true).card := by
  have h2 : (upper D).countP p = ∑ i, ∑ j, if j < i ∧ 0 < D i j ∧ p (D i j) = true then 1 else 0 := by
    rw [upper_count D p, Finset.sum_comm]
    exact Finset.sum_congr rfl fun i _ => Finset.sum_congr rfl fun j _ => by rw [hD]
  rw [two_mul]
  conv_lhs => lhs; rw [upper_count D p]
  rw [h2, ← Finset.sum_add_distrib, Finset.card_filter, Fintype.sum_prod_type]
  refine Finset.sum_congr rfl fun i _ => ?_
  rw [← Finset.sum_add_distrib]
  refine Finset.sum_congr rfl fun j _ => ?_
  rcases lt_trichotomy i j with h | h | h
  · simp [h, not_lt.2 h.le]
  · simp [h, h0]
  · simp [h, not_lt.2 h.le]

/-- If less than half of the positive entries are below `a` and less than half are above `b` then their median is between `a` and `b`. -/
theorem median_of_counts (D : Fin n → Fin n → ℝ) (hD : ∀ i j, D i j = D j i) (h0 : ∀ i, D i i = 0) {a b : ℝ}
    (hnear : 2 * (Finset.univ.filter fun q : Fin n × Fin n => 0 < D q.1 q.2 ∧ D q.1 q.2 < a).card < (Finset.univ.filter fun q : Fin n × Fin n => 0 < D q.1 q.2).card)
    (hfar : 2 * (Finset.univ.filter fun q : Fin n × Fin n => 0 < D q.1 q.2 ∧ b < D q.1 q.2).card < (Finset.univ.filter fun q : Fin n × Fin n => 0 < D q.1 q.2).card) :
    ∃ m, median (upper D) = some m ∧ a ≤ m ∧ m ≤ b := by
  have hlen := upper_twice D hD h0 fun _ => true
  have hlen' : (upper D).countP (fun _ => true) = (upper D).length := by simp
  rw [hlen'] at hlen
  simp only [and_true] at hlen
  have e1 := upper_twice D hD h0 fun x => decide (x < a)
  have e2 := upper_twice D hD h0 fun x => decide (b < x)
  simp only [decide_eq_true_eq] at e1 e2
  exact median_between (by omega) (by omega)

end median

section drawn
open MeasureTheory ProbabilityTheory Filter
open scoped Topology

variable {Ω : Type} [MeasurableSpace Ω] {P : Measure Ω} [IsProbabilityMeasure P]

/-- Numbers drawn independently from one distribution. -/
structure DrawnNumbers (P : Measure Ω) (x : ℕ → Ω → ℝ) : Prop where
  meas : ∀ s, Measurable (x s)
  indep : ∀ s t, s ≠ t → IndepFun (x s) (x t) P
  ident : ∀ s, IdentDistrib (x s) (x 0) P P

/-- How many of the first `N` numbers are in a set. -/
noncomputable def hits (A : Set ℝ) (x : ℕ → ℝ) (N : ℕ) : ℕ := by
  classical exact (Finset.univ.filter fun s : Fin N => x s ∈ A).card

theorem hits_lt {x : ℕ → Ω → ℝ} (h : DrawnNumbers P x) {A : Set ℝ} (hA : MeasurableSet A) {c : ℝ} (hc : P.real {ω | x 0 ω ∈ A} < c) :
    ∀ᵐ ω ∂P, ∀ᶠ N : ℕ in atTop, (hits A (fun s => x s ω) N : ℝ) < c * N := by
  classical
  have hg : Measurable (A.indicator fun _ => (1 : ℝ)) := measurable_const.indicator hA
  have h1 := strong_law_ae_real (fun s ω => A.indicator (fun _ => (1 : ℝ)) (x s ω)) (μ := P)
    ((integrable_const (1 : ℝ)).mono' (hg.comp (h.meas 0)).aestronglyMeasurable (Eventually.of_forall fun ω => by
      by_cases hx : x 0 ω ∈ A <;> simp [hx]))
    (fun i j hij => (h.indep i j hij).comp hg hg) fun s => (h.ident s).comp hg
  have h2 : P[fun ω => A.indicator (fun _ => (1 : ℝ)) (x 0 ω)] = P.real {ω | x 0 ω ∈ A} := by
    have e : (fun ω => A.indicator (fun _ => (1 : ℝ)) (x 0 ω)) = {ω | x 0 ω ∈ A}.indicator fun _ => (1 : ℝ) := by
      ext ω
      by_cases hx : x 0 ω ∈ A <;> simp [hx]
    rw [e]
    exact (integral_indicator_const (1 : ℝ) (show MeasurableSet {ω | x 0 ω ∈ A} from h.meas 0 hA)).trans (by simp)
  filter_upwards [h1] with ω hω
  rw [h2] at hω
  filter_upwards [hω.eventually (gt_mem_nhds hc), eventually_gt_atTop 0] with N h3 h4
  have hN : (0 : ℝ) < N := by exact_mod_cast h4
  rw [div_lt_iff₀ hN] at h3
  refine lt_of_eq_of_lt ?_ h3
  unfold hits
  rw [Finset.card_filter, ← Fin.sum_univ_eq_sum_range (fun s => A.indicator (fun _ => (1 : ℝ)) (x s ω)) N]
  push_cast
  exact Finset.sum_congr rfl fun s _ => by by_cases hx : x s ω ∈ A <;> simp [hx]

theorem hits_compl (A : Set ℝ) (x : ℕ → ℝ) (N : ℕ) : (hits A x N : ℝ) + hits Aᶜ x N = N := by
  classical
  unfold hits
  have h := Finset.card_filter_add_card_filter_not (s := (Finset.univ : Finset (Fin N))) fun s : Fin N => x s ∈ A
  rw [Finset.card_univ, Fintype.card_fin] at h
  exact_mod_cast (by convert h)

/-- The median of the squared distances of drawn numbers that are not all equal stays between two positive bounds. -/
theorem median_bounds {x : ℕ → Ω → ℝ} (h : DrawnNumbers P x) {A : Set ℝ} (hA : MeasurableSet A) (hA0 : 0 < P.real {ω | x 0 ω ∈ A}) (hA1 : P.real {ω | x 0 ω ∈ A} < 1) :
    ∃ a b : ℝ, 0 < a ∧ a ≤ b ∧ ∀ᵐ ω ∂P, ∀ᶠ N : ℕ in atTop, ∃ m, median (upper fun i j : Fin N => (x i ω - x j ω) ^ 2) = some m ∧ a ≤ m ∧ m ≤ b := by
  classical
  obtain ⟨p, hp⟩ : ∃ p, p = P.real {ω | x 0 ω ∈ A} := ⟨_, rfl⟩
  rw [← hp] at hA0 hA1
  have hp' : P.real {ω | x 0 ω ∈ Aᶜ} = 1 - p := by
    have : {ω | x 0 ω ∈ Aᶜ} = {ω | x 0 ω ∈ A}ᶜ := rfl
    rw [this, measureReal_compl (show MeasurableSet {ω | x 0 ω ∈ A} from h.meas 0 hA), probReal_univ, hp]
  obtain ⟨ε, hε⟩ : ∃ ε, ε = p * (1 - p) / 32 := ⟨_, rfl⟩
  have hε0 : 0 < ε := by
    have : 0 < 1 - p := by linarith
    rw [hε]; positivity
  obtain ⟨μ, hμ⟩ : ∃ μ, μ = P.map (x 0) := ⟨_, rfl⟩
  have hμP : IsProbabilityMeasure μ := by rw [hμ]; exact Measure.isProbabilityMeasure_map (h.meas 0).aemeasurable
  have hreal : ∀ {A : Set ℝ}, MeasurableSet A → P.real {ω | x 0 ω ∈ A} = μ.real A := fun hA => by
    rw [hμ, map_measureReal_apply (h.meas 0) hA]; rfl
  have hreal' : ∀ {A : Set ℝ} {c : ℝ}, 0 < c → μ A < ENNReal.ofReal c → μ.real A < c := fun hc hA => by
    rw [Measure.real, ← ENNReal.toReal_ofReal hc.le]
    exact (ENNReal.toReal_lt_toReal (measure_ne_top _ _) ENNReal.ofReal_ne_top).2 hA
  obtain ⟨K, hK, hKm⟩ := isTightMeasureSet_iff_exists_isCompact_measure_compl_le.1 (isTightMeasureSet_singleton (μ := μ)) (ENNReal.ofReal (ε / 2)) (by simpa using hε0)
  have hKc : P.real {ω | x 0 ω ∈ Kᶜ} < ε := by
    rw [hreal hK.measurableSet.compl]
    exact hreal' hε0 ((hKm μ rfl).trans_lt ((ENNReal.ofReal_lt_ofReal_iff hε0).2 (by linarith)))
  obtain ⟨R, hR⟩ := hK.isBounded.subset_closedBall 0
  have hball : ∀ c : ℝ, ∃ r, 0 < r ∧ μ.real (Metric.closedBall c (2 * r) \ {c}) < ε := fun c => by
    have h1 := tendsto_measure_cthickening_of_isClosed (μ := μ) (s := {c}) ⟨1, one_pos, measure_ne_top _ _⟩ isClosed_singleton
    have h3 : ∀ᶠ r in 𝓝 (0 : ℝ), μ (Metric.cthickening r {c}) < μ {c} + ENNReal.ofReal ε :=
      h1.eventually (gt_mem_nhds (ENNReal.lt_add_right (measure_ne_top _ _) (by simpa using hε0)))
    have h4 := (h3.filter_mono (nhdsWithin_le_nhds (s := Set.Ioi 0))).and self_mem_nhdsWithin
    obtain ⟨r, hr1, hr2⟩ := h4.exists
    have hr2 : 0 < r := hr2
    rw [Metric.cthickening_singleton c hr2.le] at hr1
    refine ⟨r / 2, by linarith, hreal' hε0 ?_⟩
    rw [show 2 * (r / 2) = r by ring, measure_sdiff (by simpa using hr2.le) (measurableSet_singleton c).nullMeasurableSet (measure_ne_top _ _)]
    exact (ENNReal.sub_lt_iff_lt_left (measure_ne_top _ _) (measure_mono (by simpa using hr2.le))).2 hr1
  choose r hr hrm using hball
  obtain ⟨B, hB⟩ : ∃ B : ℝ → Set ℝ, B = fun c => Metric.closedBall c (2 * r c) \ {c} := ⟨_, rfl⟩
  have hBm : ∀ c, MeasurableSet (B c) := fun c => by rw [hB]; exact measurableSet_closedBall.diff (measurableSet_singleton c)
  obtain ⟨t, -, ht⟩ := hK.elim_nhds_subcover (fun c => Metric.closedBall c (r c)) fun c _ => Metric.closedBall_mem_nhds c (hr c)
  obtain ⟨δ, hδ, hδt⟩ : ∃ δ : ℝ, 0 < δ ∧ ∀ c ∈ t, δ ≤ r c := by
    have h1 : ∀ᶠ δ in 𝓝[>] (0 : ℝ), ∀ c ∈ t, δ ≤ r c := (Filter.eventually_all_finset t).2 fun c _ => by
      filter_upwards [Ioc_mem_nhdsGT (hr c)] with δ hδ using hδ.2
    obtain ⟨δ, h2, h3⟩ := (h1.and self_mem_nhdsWithin).exists
    exact ⟨δ, h3, h2⟩
  have hev : ∀ᵐ ω ∂P, ∀ᶠ N : ℕ in atTop, ∀ c ∈ t, (hits (B c) (fun s => x s ω) N : ℝ) < ε * N := by
    have : ∀ᵐ ω ∂P, ∀ c ∈ t, ∀ᶠ N : ℕ in atTop, (hits (B c) (fun s => x s ω) N : ℝ) < ε * N :=
      (ae_ball_iff t.countable_toSet).2 fun c _ => hits_lt h (hBm c) (by rw [hreal (hBm c), hB]; exact hrm c)
    filter_upwards [this] with ω hω using (Filter.eventually_all_finset t).2 hω
  refine ⟨min (δ ^ 2) ((2 * R) ^ 2 + 1), (2 * R) ^ 2 + 1, lt_min (by positivity) (by positivity), min_le_right _ _, ?_⟩
  filter_upwards [hev, hits_lt h hK.measurableSet.compl hKc, hits_lt h hA (c := (1 + p) / 2) (by linarith),
    hits_lt h hA.compl (c := 1 - p / 2) (by linarith)] with ω h1 h2 h1' h2'
  filter_upwards [h1, h2, h1', h2', eventually_gt_atTop 0] with N h3 h4 h6 h7 h5
  have hN : (0 : ℝ) < N := by exact_mod_cast h5
  have hsum := hits_compl A (fun s => x s ω) N
  have prod : ∀ (U V : Set ℝ) (S : Finset (Fin N × Fin N)), (∀ q, q ∈ S ↔ x q.1 ω ∈ U ∧ x q.2 ω ∈ V) → (S.card : ℝ) = hits U (fun s => x s ω) N * hits V (fun s => x s ω) N := fun U V S hS => by
    have e : S = (Finset.univ.filter fun s : Fin N => x s ω ∈ U) ×ˢ (Finset.univ.filter fun s : Fin N => x s ω ∈ V) := by
      ext q; simp [hS]
    rw [e, Finset.card_product, Nat.cast_mul]
    unfold hits
    congr
  have huniv : (hits Set.univ (fun s => x s ω) N : ℝ) = N := by simp [hits]
  have hpos : 8 * ε * (N : ℝ) ^ 2 ≤ (Finset.univ.filter fun q : Fin N × Fin N => 0 < (x q.1 ω - x q.2 ω) ^ 2).card := by
    have hsub : (Finset.univ.filter fun q : Fin N × Fin N => x q.1 ω ∈ A ∧ x q.2 ω ∈ Aᶜ) ⊆ Finset.univ.filter fun q : Fin N × Fin N => 0 < (x q.1 ω - x q.2 ω) ^ 2 := fun q hq => by
      rw [Finset.mem_filter] at hq ⊢
      refine ⟨Finset.mem_univ _, ?_⟩
      have : x q.1 ω - x q.2 ω ≠ 0 := fun h0 => hq.2.2 (by rw [← sub_eq_zero.1 h0]; exact hq.2.1)
      positivity
    have h8 : ((Finset.univ.filter fun q : Fin N × Fin N => x q.1 ω ∈ A ∧ x q.2 ω ∈ Aᶜ).card : ℝ) ≤ _ := Nat.cast_le.2 (Finset.card_le_card hsub)
    rw [prod A Aᶜ _ fun q => by simp] at h8
    refine le_trans ?_ h8
    have a1 : p / 2 * N ≤ hits A (fun s => x s ω) N := by linarith
    have a2 : (1 - p) / 2 * N ≤ hits Aᶜ (fun s => x s ω) N := by linarith
    have a3 := mul_le_mul a1 a2 (mul_nonneg (by linarith) hN.le) (Nat.cast_nonneg _)
    rw [hε]
    refine le_trans (le_of_eq ?_) a3
    ring
  have hout : ((Finset.univ.filter fun q : Fin N × Fin N => x q.1 ω ∈ Kᶜ ∧ x q.2 ω ∈ Set.univ).card : ℝ) ≤ ε * N ^ 2 := by
    rw [prod Kᶜ Set.univ _ fun q => by simp, huniv, pow_two, ← mul_assoc]
    exact mul_le_mul_of_nonneg_right h4.le hN.le
  have hout' : ((Finset.univ.filter fun q : Fin N × Fin N => x q.1 ω ∈ Set.univ ∧ x q.2 ω ∈ Kᶜ).card : ℝ) ≤ ε * N ^ 2 := by
    rw [prod Set.univ Kᶜ _ fun q => by simp, huniv, pow_two, mul_comm, ← mul_assoc]
    exact mul_le_mul_of_nonneg_right h4.le hN.le
  have hNN : 0 < ε * (N : ℝ) ^ 2 := by positivity
  -- the pairs of one record with the records near its point of the cover
  have row : ∀ (U : Fin N → Fin N → Prop), (∀ i, ((Finset.univ.filter fun j => U i j).card : ℝ) ≤ ε * N) → ((Finset.univ.filter fun q : Fin N × Fin N => U q.1 q.2).card : ℝ) ≤ ε * N ^ 2 := fun U hU => by
    have e : (Finset.univ.filter fun q : Fin N × Fin N => U q.1 q.2).card = ∑ i : Fin N, (Finset.univ.filter fun j : Fin N => U i j).card := by
      simp only [Finset.card_filter, Fintype.sum_prod_type]
    rw [e, Nat.cast_sum]
    refine (Finset.sum_le_sum fun i _ => hU i).trans (le_of_eq ?_)
    rw [Finset.sum_const, Finset.card_univ, Fintype.card_fin, nsmul_eq_mul]
    ring
  have col : ∀ (U : Fin N → Fin N → Prop), (∀ i, ((Finset.univ.filter fun j => U j i).card : ℝ) ≤ ε * N) → ((Finset.univ.filter fun q : Fin N × Fin N => U q.1 q.2).card : ℝ) ≤ ε * N ^ 2 := fun U hU => by
    have := row (fun i j => U j i) hU
    refine le_trans (le_of_eq ?_) this
    norm_cast
    exact Finset.card_bij (fun q _ => q.swap) (fun q hq => by simpa using hq) (fun q _ q' _ he => Prod.swap_injective he) fun q hq => ⟨q.swap, by simpa using hq, by simp⟩
  have hz : (0 : ℝ) ≤ ε * N := by positivity
  have hcov : ∀ i : Fin N, x i ω ∈ K → ∃ c ∈ t, |x i ω - c| ≤ r c := fun i hi => by
    obtain ⟨c, hc, hic⟩ := Set.mem_iUnion₂.1 (ht hi)
    exact ⟨c, hc, by simpa [Real.dist_eq] using hic⟩
  obtain ⟨cen, hcen⟩ : ∃ cen : Fin N → ℝ, ∀ i : Fin N, x i ω ∈ K → cen i ∈ t ∧ |x i ω - cen i| ≤ r (cen i) :=
    ⟨fun i : Fin N => if hi : x i ω ∈ K then (hcov i hi).choose else 0, fun (i : Fin N) hi => by
      have := (hcov i hi).choose_spec
      simp only [hi, dif_pos]
      exact this⟩
  have c1 := row (fun i j => x i ω ∈ K ∧ x j ω ∈ B (cen i)) fun i => by
    by_cases hi : x i ω ∈ K
    · refine le_trans (le_of_eq ?_) (h3 (cen i) (hcen i hi).1).le
      unfold hits
      simp only [hi, true_and]
    · simpa [hi] using hz
  have c2 := col (fun i j => x j ω ∈ t ∧ x i ω ∈ B (x j ω)) fun j => by
    by_cases hj : x j ω ∈ t
    · refine le_trans (le_of_eq ?_) (h3 (x j ω) hj).le
      unfold hits
      simp only [hj, true_and]
    · simpa [hj] using hz
  have c1' : ((Finset.univ.filter fun q : Fin N × Fin N => x q.1 ω ∈ K ∧ x q.2 ω ∈ B (cen q.1)).card : ℝ) ≤ ε * N ^ 2 := by convert c1
  have c2' : ((Finset.univ.filter fun q : Fin N × Fin N => x q.2 ω ∈ t ∧ x q.1 ω ∈ B (x q.2 ω)).card : ℝ) ≤ ε * N ^ 2 := by convert c2
  refine median_of_counts (fun i j : Fin N => (x i ω - x j ω) ^ 2) (fun i j => by ring) (fun i => by ring) ?_ ?_
  · have hsub : (Finset.univ.filter fun q : Fin N × Fin N => 0 < (x q.1 ω - x q.2 ω) ^ 2 ∧ (x q.1 ω - x q.2 ω) ^ 2 < min (δ ^ 2) ((2 * R) ^ 2 + 1)).card ≤
        (Finset.univ.filter fun q : Fin N × Fin N => x q.1 ω ∈ Kᶜ ∧ x q.2 ω ∈ Set.univ).card + ((Finset.univ.filter fun q : Fin N × Fin N => x q.1 ω ∈ K ∧ x q.2 ω ∈ B (cen q.1)).card +
          (Finset.univ.filter fun q : Fin N × Fin N => x q.2 ω ∈ t ∧ x q.1 ω ∈ B (x q.2 ω)).card) := by
      refine le_trans (Finset.card_le_card ?_) ((Finset.card_union_le _ _).trans (Nat.add_le_add_left (Finset.card_union_le _ _) _))
      intro q hq
      rw [Finset.mem_filter] at hq
      rw [Finset.mem_union, Finset.mem_union, Finset.mem_filter, Finset.mem_filter, Finset.mem_filter]
      have hne : x q.1 ω ≠ x q.2 ω := fun h0 => by
        have := hq.2.1
        rw [h0, sub_self] at this
        norm_num at this
      have hd : |x q.1 ω - x q.2 ω| < δ := abs_lt_of_sq_lt_sq (hq.2.2.trans_le (min_le_left _ _)) hδ.le
      by_cases hK' : x q.1 ω ∈ K
      · obtain ⟨k1, k2⟩ := hcen q.1 hK'
        have k3 := hδt _ k1
        right
        by_cases hc : x q.2 ω = cen q.1
        · right
          refine ⟨Finset.mem_univ _, by rw [hc]; exact k1, ?_⟩
          rw [hB]
          refine ⟨?_, hne⟩
          rw [Metric.mem_closedBall, Real.dist_eq, hc]
          linarith [hr (cen q.1)]
        · left
          refine ⟨Finset.mem_univ _, hK', ?_⟩
          rw [hB]
          refine ⟨?_, hc⟩
          rw [Metric.mem_closedBall, Real.dist_eq]
          have := abs_sub_le (x q.2 ω) (x q.1 ω) (cen q.1)
          rw [abs_sub_comm (x q.2 ω) (x q.1 ω)] at this
          linarith
      · left
        exact ⟨Finset.mem_univ _, hK', trivial⟩
    have hsub' := (Nat.cast_le (α := ℝ)).2 hsub
    push_cast at hsub'
    have : (2 * (Finset.univ.filter fun q : Fin N × Fin N => 0 < (x q.1 ω - x q.2 ω) ^ 2 ∧ (x q.1 ω - x q.2 ω) ^ 2 < min (δ ^ 2) ((2 * R) ^ 2 + 1)).card : ℝ) <
        (Finset.univ.filter fun q : Fin N × Fin N => 0 < (x q.1 ω - x q.2 ω) ^ 2).card := by linarith
    exact_mod_cast this
  · have hsub : (Finset.univ.filter fun q : Fin N × Fin N => 0 < (x q.1 ω - x q.2 ω) ^ 2 ∧ (2 * R) ^ 2 + 1 < (x q.1 ω - x q.2 ω) ^ 2).card ≤
        (Finset.univ.filter fun q : Fin N × Fin N => x q.1 ω ∈ Kᶜ ∧ x q.2 ω ∈ Set.univ).card + (Finset.univ.filter fun q : Fin N × Fin N => x q.1 ω ∈ Set.univ ∧ x q.2 ω ∈ Kᶜ).card := by
      refine le_trans (Finset.card_le_card ?_) (Finset.card_union_le _ _)
      intro q hq
      rw [Finset.mem_filter] at hq
      rw [Finset.mem_union, Finset.mem_filter, Finset.mem_filter]
      by_contra hno
      simp only [Finset.mem_univ, true_and, Set.mem_univ, and_true, Set.mem_compl_iff, not_or, not_not] at hno
      have a1 := hR hno.1
      have a2 := hR hno.2
      rw [Metric.mem_closedBall, Real.dist_eq, sub_zero] at a1 a2
      have a3 : |x q.1 ω - x q.2 ω| ≤ 2 * R := (abs_sub _ _).trans (by linarith)
      have a4 : (x q.1 ω - x q.2 ω) ^ 2 ≤ (2 * R) ^ 2 := by
        rw [← sq_abs]
        exact pow_le_pow_left₀ (abs_nonneg _) a3 2
      linarith [hq.2.2]
    have hsub' := (Nat.cast_le (α := ℝ)).2 hsub
    push_cast at hsub'
    have : (2 * (Finset.univ.filter fun q : Fin N × Fin N => 0 < (x q.1 ω - x q.2 ω) ^ 2 ∧ (2 * R) ^ 2 + 1 < (x q.1 ω - x q.2 ω) ^ 2).card : ℝ) <
        (Finset.univ.filter fun q : Fin N × Fin N => 0 < (x q.1 ω - x q.2 ω) ^ 2).card := by linarith
    exact_mod_cast this

end drawn

section widths
open MeasureTheory ProbabilityTheory
open scoped NNReal

theorem gauss_cos (w : ℝ≥0) (y : ℝ) : ∫ t, Real.cos (t * y) ∂gaussianReal 0 w = Real.exp (-(1 / 2) * y ^ 2 * w) := by
  have h := charFun_gaussianReal (μ := 0) (v := w) y
  rw [charFun_apply_real] at h
  have h1 : Integrable (fun t : ℝ => Complex.exp (y * t * Complex.I)) (gaussianReal 0 w) :=
    bounded_integrable (C := 1) (by fun_prop) fun t => by rw [← Complex.ofReal_mul, Complex.norm_exp_ofReal_mul_I]
  have h2 := Complex.reCLM.integral_comp_comm h1
  simp only [Complex.reCLM_apply] at h2
  rw [h] at h2
  have h3 : ∀ t : ℝ, (Complex.exp (y * t * Complex.I)).re = Real.cos (t * y) := fun t => by
    rw [← Complex.ofReal_mul, Complex.exp_ofReal_mul_I_re, mul_comm]
  simp only [h3] at h2
  rw [h2]
  have h4 : (y * (0 : ℝ) * Complex.I - w * y ^ 2 / 2 : ℂ) = ((-(1 / 2) * y ^ 2 * w : ℝ) : ℂ) := by
    push_cast
    ring
  rw [h4, Complex.exp_ofReal_re]

theorem gauss_density {a w : ℝ≥0} (ha : 0 < a) (hw : a ≤ w) (t : ℝ) : √(a / w : ℝ) * gaussianPDFReal 0 a t ≤ gaussianPDFReal 0 w t := by
  have hw0 : (0 : ℝ) < w := by exact_mod_cast ha.trans_le hw
  have ha0 : (0 : ℝ) < a := by exact_mod_cast ha
  have hwa : (a : ℝ) ≤ w := by exact_mod_cast hw
  have hpi := Real.pi_pos
  unfold gaussianPDFReal
  have e : √(a / w : ℝ) * (√(2 * Real.pi * a))⁻¹ = (√(2 * Real.pi * w))⁻¹ := by
    rw [← Real.sqrt_inv, ← Real.sqrt_inv, ← Real.sqrt_mul (by positivity)]
    congr 1
    field_simp
  rw [← mul_assoc, e]
  refine mul_le_mul_of_nonneg_left (Real.exp_le_exp.2 ?_) (by positivity)
  rw [neg_div, neg_div, neg_le_neg_iff]
  exact div_le_div_of_nonneg_left (sq_nonneg _) (by positivity) (by linarith)

/-- A Gaussian kernel matrix of numbers is at least a multiple of every wider one. -/
theorem width_psd (X : Data n 1) {a w : ℝ} (ha : 0 < a) (hw : a ≤ w) : (gaussianWidth w X - √(a / w) • gaussianWidth a X).PosSemidef := by
  obtain ⟨a', rfl⟩ : ∃ a' : ℝ≥0, (a' : ℝ) = a := ⟨⟨a, ha.le⟩, rfl⟩
  obtain ⟨w', rfl⟩ : ∃ w' : ℝ≥0, (w' : ℝ) = w := ⟨⟨w, (ha.trans_le hw).le⟩, rfl⟩
  have ha' : 0 < a' := by exact_mod_cast ha
  have hw' : a' ≤ w' := by exact_mod_cast hw
  refine Matrix.PosSemidef.of_dotProduct_mulVec_nonneg ?_ fun c => ?_
  · ext i j
    simp [Matrix.conjTranspose_apply, gaussianWidth, sqDist_comm X i j]
  · obtain ⟨f, hf⟩ : ∃ f : ℝ → ℝ, f = fun t => (∑ i, c i * Real.cos (t * X i 0)) ^ 2 + (∑ i, c i * Real.sin (t * X i 0)) ^ 2 := ⟨_, rfl⟩
    have hfe : ∀ t, f t = ∑ i, ∑ j, c i * c j * Real.cos (t * (X i 0 - X j 0)) := fun t => by
      rw [hf]
      simp only [pow_two, Finset.sum_mul_sum]
      rw [← Finset.sum_add_distrib]
      refine Finset.sum_congr rfl fun i _ => ?_
      rw [← Finset.sum_add_distrib]
      refine Finset.sum_congr rfl fun j _ => ?_
      rw [mul_sub, Real.cos_sub]
      ring
    have hcos : ∀ (v : ℝ≥0) (y : ℝ), Integrable (fun t => Real.cos (t * y)) (gaussianReal 0 v) := fun v y =>
      (integrable_const (1 : ℝ)).mono' (by fun_prop) (Filter.Eventually.of_forall fun t => Real.abs_cos_le_one _)
    have hint : ∀ v : ℝ≥0, ∫ t, f t ∂gaussianReal 0 v = ∑ i, ∑ j, c i * c j * gaussianWidth v X i j := fun v => by
      simp only [hfe]
      rw [integral_finsetSum _ fun i _ => integrable_finsetSum _ fun j _ => (hcos v _).const_mul _]
      refine Finset.sum_congr rfl fun i _ => ?_
      rw [integral_finsetSum _ fun j _ => (hcos v _).const_mul _]
      refine Finset.sum_congr rfl fun j _ => ?_
      rw [integral_const_mul, gauss_cos]
      simp [gaussianWidth, sqDist]
    have hf0 : ∀ t, 0 ≤ f t := fun t => by rw [hf]; positivity
    have hfi : ∀ v : ℝ≥0, v ≠ 0 → Integrable fun t => gaussianPDFReal 0 v t * f t := fun v hv => by
      have h1 : ∀ t, ‖f t‖ ≤ ∑ i, ∑ j, |c i * c j| := fun t => by
        rw [hfe, Real.norm_eq_abs]
        refine (Finset.abs_sum_le_sum_abs _ _).trans (Finset.sum_le_sum fun i _ => (Finset.abs_sum_le_sum_abs _ _).trans (Finset.sum_le_sum fun j _ => ?_))
        rw [abs_mul (c i * c j)]
        exact mul_le_of_le_one_right (abs_nonneg _) (Real.abs_cos_le_one _)
      have h2 : Measurable f := by rw [hf]; fun_prop
      exact (integrable_gaussianPDFReal 0 v).mul_bdd h2.aestronglyMeasurable (Filter.Eventually.of_forall h1)
    have hge : √(a' / w' : ℝ) * ∫ t, f t ∂gaussianReal 0 a' ≤ ∫ t, f t ∂gaussianReal 0 w' := by
      rw [integral_gaussianReal_eq_integral_smul ha'.ne', integral_gaussianReal_eq_integral_smul (ha'.trans_le hw').ne', ← integral_const_mul]
      refine integral_mono ((hfi a' ha'.ne').const_mul _) (hfi w' (ha'.trans_le hw').ne') fun t => ?_
      simp only [smul_eq_mul]
      rw [← mul_assoc]
      exact mul_le_mul_of_nonneg_right (gauss_density ha' hw' t) (hf0 t)
    rw [hint, hint] at hge
    refine le_of_le_of_eq (sub_nonneg.2 hge) ?_
    simp only [dotProduct, Matrix.mulVec, Finset.mul_sum (s := (Finset.univ : Finset (Fin n))), star_trivial]
    rw [← Finset.sum_sub_distrib]
    refine Finset.sum_congr rfl fun i _ => ?_
    rw [← Finset.sum_sub_distrib]
    refine Finset.sum_congr rfl fun j _ => ?_
    rw [Matrix.sub_apply, Matrix.smul_apply, smul_eq_mul]
    ring

end widths

end Cdmir.MedianWidth
