import Verif.Props.NotearsSample

/-! C177: which penalties make notears_linear return no edge. -/

namespace Cdmir.Notears
open BigOperators Spec Matrix

variable {n d : Nat}

theorem sq_expand (X : Matrix (Fin n) (Fin d) ℝ) (W : Matrix (Fin d) (Fin d) ℝ) :
    sq X W = sq X 0 - ∑ i, ∑ j, gram X i j * W i j + 1 / 2 / n * ∑ s, ∑ j, (∑ l, X s l * W l j) ^ 2 := by
  have h1 : ∑ i, ∑ j, gram X i j * W i j = 1 / n * ∑ s, ∑ j, X s j * ∑ l, X s l * W l j := by
    unfold gram
    simp only [of_apply, Finset.mul_sum, Finset.sum_div, Finset.sum_mul]
    rw [Finset.sum_comm]
    conv_rhs => rw [Finset.sum_comm]
    refine Finset.sum_congr rfl fun j _ => ?_
    conv_rhs => rw [Finset.sum_comm]
    refine Finset.sum_congr rfl fun i _ => Finset.sum_congr rfl fun s _ => ?_
    ring
  rw [h1]
  unfold sq
  simp only [Matrix.zero_apply, mul_zero, Finset.sum_const_zero, sub_zero]
  have h2 : ∀ s j, (X s j - ∑ l, X s l * W l j) ^ 2 = X s j ^ 2 - 2 * (X s j * ∑ l, X s l * W l j) + (∑ l, X s l * W l j) ^ 2 := fun s j => by ring
  simp only [h2, Finset.sum_add_distrib, Finset.sum_sub_distrib, ← Finset.mul_sum]
  ring

theorem hW_zero (hd : 0 < d) : (hW (0 : Matrix (Fin d) (Fin d) ℝ)).1 = 0 :=
  (c57_linear hd 0).2.2 fun i hi => by
    obtain ⟨b, hb, -⟩ := Relation.TransGen.head'_iff.1 hi
    exact hb rfl

/-- With a penalty of at least all covariances the minimum is at zero, and only there. -/
theorem minim_zero (hd : 0 < d) (hn : 0 < n) {X : Matrix (Fin n) (Fin d) ℝ} (hX : Indep X) {lambda1 : ℝ} (hl : 0 ≤ lambda1)
    (hg : ∀ i j, i ≠ j → |gram X i j| ≤ lambda1) {minim : ℝ → ℝ → Doubled ℝ d → Doubled ℝ d} (h : Optimal X lambda1 minim) {r a : ℝ} (hr : 0 < r) (ha : 0 ≤ a)
    (w : Doubled ℝ d) : adj (minim r a w) = 0 := by
  obtain ⟨hbox, hmin⟩ := h r a w hr ha
  obtain ⟨v, g, v', g', h1, h2, hv⟩ := hmin (split 0) (box_split fun _ => rfl)
  obtain ⟨g1, e1⟩ := func_sq X lambda1 r a (minim r a w)
  obtain ⟨g2, e2⟩ := func_sq X lambda1 r a (split 0)
  rw [h1, Option.some.injEq, Prod.mk.injEq] at e1
  rw [h2, Option.some.injEq, Prod.mk.injEq, adj_split, hW_zero hd, total_split] at e2
  rw [e1.1, e2.1] at hv
  obtain ⟨W, hW'⟩ : ∃ W, W = adj (minim r a w) := ⟨_, rfl⟩
  have hh := (c57_linear hd W).1
  have ht := mul_le_mul_of_nonneg_left (total_box hbox) hl
  rw [← hW'] at hv ht ⊢
  have hdg : ∀ i, W i i = 0 := fun i => by
    rw [hW']
    change (minim r a w).1 i i - (minim r a w).2 i i = 0
    rw [(hbox.2 i).1, (hbox.2 i).2, sub_zero]
  have h3 := mul_nonneg ha hh
  have h5 : 0 ≤ 1 / 2 * r * (hW W).1 * (hW W).1 := by positivity
  have hsum : ∑ i, ∑ j, gram X i j * W i j ≤ lambda1 * ∑ i, ∑ j, |W i j| := by
    simp only [Finset.mul_sum]
    refine Finset.sum_le_sum fun i _ => Finset.sum_le_sum fun j _ => ?_
    by_cases hij : i = j
    · subst hij; rw [hdg]; simp
    · exact (le_abs_self _).trans (by rw [abs_mul]; exact mul_le_mul_of_nonneg_right (hg i j hij) (abs_nonneg _))
  rw [sq_expand X W] at hv
  simp only [Matrix.zero_apply, abs_zero, Finset.sum_const_zero, mul_zero, add_zero] at hv
  have hq : ∑ s, ∑ j, (∑ l, X s l * W l j) ^ 2 ≤ 0 := by
    have hn' : (0 : ℝ) < 1 / 2 / n := by positivity
    by_contra q
    have := mul_pos hn' (not_le.1 q)
    linarith
  have hz : ∀ s j, ∑ l, X s l * W l j = 0 := by
    have q0 := le_antisymm hq (Finset.sum_nonneg fun _ _ => Finset.sum_nonneg fun _ _ => sq_nonneg _)
    intro s j
    have q1 := (Finset.sum_eq_zero_iff_of_nonneg fun s _ => Finset.sum_nonneg fun j _ => sq_nonneg (∑ l, X s l * W l j)).1 q0 s (Finset.mem_univ s)
    exact pow_eq_zero_iff (by norm_num) |>.1 ((Finset.sum_eq_zero_iff_of_nonneg fun j _ => sq_nonneg (∑ l, X s l * W l j)).1 q1 j (Finset.mem_univ j))
  ext l j
  exact congrFun (hX (fun l => W l j) fun s => hz s j) l

/-- C177. With a penalty of at least the greatest covariance of two different columns, notears_linear returns no edge, whatever the tolerance, the number of rounds and
the threshold. -/
theorem c177_empty (hd : 0 < d) (hn : 0 < n) {X : Matrix (Fin n) (Fin d) ℝ} (hX : Indep X) {lambda1 : ℝ} (hl : 0 ≤ lambda1)
    (hg : ∀ i j, i ≠ j → |gram X i j| ≤ lambda1) {minim : ℝ → ℝ → Doubled ℝ d → Doubled ℝ d} (h : Optimal X lambda1 minim) (p : Params ℝ) (hp : 1 < p.rhoMax)
    {fuel : Nat} (hf : 0 < fuel) : notearsLinear fuel minim p = .ok 0 := by
  have key : ∀ k (s : State ℝ d), s.rho = 1 → s.alpha = 0 → (s.h = none ∨ s.h = some 0) → adj s.w = 0 → ∃ s', outer fuel minim p k s = .ok s' ∧ adj s'.w = 0 := by
    intro k
    induction k with
    | zero => exact fun s _ _ _ hs => ⟨s, rfl, hs⟩
    | succ k ih =>
      intro s h1 h2 h3 h4
      obtain ⟨f, rfl⟩ : ∃ f, fuel = f + 1 := ⟨fuel - 1, by omega⟩
      have hz := minim_zero hd hn hX hl hg h one_pos (le_refl (0 : ℝ)) s.w
      have hslow : slow s.h (0 : ℝ) = false := by
        rcases h3 with e | e <;> rw [e] <;> simp [slow]
      have hin : inner minim p.rhoMax s.alpha s.h s.w (f + 1) s.rho none = .ok (1, some (minim 1 0 s.w, 0)) := by
        rw [inner, h1, h2, if_pos hp]
        simp only [hz, hW_zero hd, hslow, Bool.false_eq_true, if_false]
        rfl
      rw [outer, hin]
      simp only [bind, Except.bind]
      split
      · exact ⟨_, rfl, hz⟩
      · exact ih _ rfl (by rw [h2]; norm_num) (Or.inr rfl) hz
  obtain ⟨s', e, hs⟩ := key p.maxIter ⟨(fun _ _ => 0, fun _ _ => 0), 1, 0, none⟩ rfl rfl (Or.inl rfl) (by ext i j; exact sub_zero 0)
  unfold notearsLinear
  rw [e]
  simp only [bind, Except.bind, pure, Except.pure, hs]
  congr 1
  ext i j
  unfold threshold
  simp

theorem gram_reversed : gram reversed 0 1 = 2 ∧ gram reversed 1 0 = 2 := by
  constructor <;> simp [gram, reversed, Fin.sum_univ_four] <;> norm_num

/-- A case meeting the hypotheses: four records with covariance 2, and penalty 2. -/
example (p : Params ℝ) (hp : 1 < p.rhoMax) : ∃ minim, Optimal reversed 2 minim ∧ notearsLinear 1 minim p = .ok 0 := by
  obtain ⟨minim, h⟩ := c169_optimal (lambda1 := 2) (by norm_num : 0 < 4) indep_reversed (by norm_num) (by norm_num : 0 < 2)
  refine ⟨minim, h, c177_empty (by norm_num) (by norm_num) indep_reversed (by norm_num) (fun i j hij => ?_) h p hp one_pos⟩
  fin_cases i <;> fin_cases j
  · exact absurd rfl hij
  · simp [gram_reversed.1]
  · simp [gram_reversed.2]
  · exact absurd rfl hij

theorem sq_edge (X : Matrix (Fin n) (Fin d) ℝ) {i j : Fin d} (t : ℝ) : sq X (edge i j t) = sq X 0 - gram X i j * t + 1 / 2 * gram X i i * t ^ 2 := by
  have h1 : ∑ k, ∑ l, gram X k l * edge i j t k l = gram X i j * t := by
    rw [Finset.sum_eq_single i, Finset.sum_eq_single j]
    · simp [edge]
    · intro l _ hl; simp [edge, hl]
    · simp
    · intro k _ hk; simp [edge, hk]
    · simp
  have h2 : ∀ s, ∑ k, (∑ l, X s l * edge i j t l k) ^ 2 = (X s i * t) ^ 2 := fun s => by
    rw [Finset.sum_eq_single j]
    · congr 1
      rw [Finset.sum_eq_single i]
      · simp [edge]
      · intro k _ hk; simp [edge, hk]
      · simp
    · intro l _ hl; simp [edge, hl]
    · simp
  rw [sq_expand, h1]
  simp only [h2]
  have h3 : gram X i i = (∑ s, X s i ^ 2) / n := by
    simp only [gram, of_apply, pow_two]
  have h4 : ∀ s, (X s i * t) ^ 2 = X s i ^ 2 * t ^ 2 := fun s => by ring
  rw [h3]
  simp only [h4, ← Finset.sum_mul]
  ring

/-- With a smaller penalty no minimum is at zero. -/
theorem minim_ne (hd : 0 < d) (hn : 0 < n) {X : Matrix (Fin n) (Fin d) ℝ} {lambda1 : ℝ} (hl : 0 ≤ lambda1) {i j : Fin d} (hij : i ≠ j)
    (hg : lambda1 < |gram X i j|) {minim : ℝ → ℝ → Doubled ℝ d → Doubled ℝ d} (h : Optimal X lambda1 minim) {r a : ℝ} (hr : 0 < r) (ha : 0 ≤ a)
    (w : Doubled ℝ d) : adj (minim r a w) ≠ 0 := by
  intro h0
  have hii : 0 < gram X i i := by
    have q : 0 ≤ gram X i i := by
      unfold gram
      rw [of_apply]
      exact div_nonneg (Finset.sum_nonneg fun s _ => mul_self_nonneg _) (by positivity)
    refine lt_of_le_of_ne q fun e => ?_
    have hs : ∀ s, X s i = 0 := by
      unfold gram at e
      rw [of_apply, eq_comm, div_eq_zero_iff] at e
      have e' := e.resolve_right (by positivity)
      intro s
      exact mul_self_eq_zero.1 ((Finset.sum_eq_zero_iff_of_nonneg fun s _ => mul_self_nonneg (X s i)).1 e' s (Finset.mem_univ s))
    have : gram X i j = 0 := by
      unfold gram
      rw [of_apply]
      simp [hs]
    rw [this, abs_zero] at hg
    linarith
  obtain ⟨c, hc⟩ : ∃ c, c = |gram X i j| := ⟨_, rfl⟩
  obtain ⟨u, hu⟩ : ∃ u, u = (c - lambda1) / gram X i i := ⟨_, rfl⟩
  rw [← hc] at hg
  have hu0 : 0 < u := by rw [hu]; exact div_pos (by linarith) hii
  have hug : u * gram X i i = c - lambda1 := by rw [hu]; field_simp
  obtain ⟨t, ht1, ht2⟩ : ∃ t, |t| = u ∧ gram X i j * t = c * u := by
    rcases le_total 0 (gram X i j) with q | q
    · exact ⟨u, abs_of_pos hu0, by rw [hc, abs_of_nonneg q]⟩
    · exact ⟨-u, by rw [abs_neg, abs_of_pos hu0], by rw [hc, abs_of_nonpos q]; ring⟩
  obtain ⟨hbox, hmin⟩ := h r a w hr ha
  have hE : (hW (edge i j t)).1 = 0 := (c57_linear hd _).2.2 (edge_acyclic hij t)
  obtain ⟨v, g, v', g', h1, h2, hv⟩ := hmin (split (edge i j t)) (box_split fun k => diag_zero hd hE k)
  obtain ⟨g1, e1⟩ := func_sq X lambda1 r a (minim r a w)
  obtain ⟨g2, e2⟩ := func_sq X lambda1 r a (split (edge i j t))
  rw [h1, Option.some.injEq, Prod.mk.injEq, h0, hW_zero hd] at e1
  rw [h2, Option.some.injEq, Prod.mk.injEq, adj_split, hE, total_split, sq_edge] at e2
  rw [e1.1, e2.1] at hv
  have hsum : ∑ k, ∑ l, |edge i j t k l| = u := by
    rw [Finset.sum_eq_single i, Finset.sum_eq_single j]
    · simp [edge, ht1]
    · intro l _ hl; simp [edge, hl]
    · simp
    · intro k _ hk; simp [edge, hk]
    · simp
  have ht := mul_le_mul_of_nonneg_left (total_box hbox) hl
  rw [h0] at ht
  simp only [Matrix.zero_apply, abs_zero, Finset.sum_const_zero, mul_zero] at ht
  rw [hsum, ht2, ← sq_abs t, ht1] at hv
  simp only [mul_zero, add_zero] at hv
  nlinarith [mul_pos hu0 (by linarith : 0 < c - lambda1)]

/-- What the loop returns is a result of the minimiser. -/
theorem outer_last {minim : ℝ → ℝ → Doubled ℝ d → Doubled ℝ d} (hd : 0 < d) {p : Params ℝ} {fuel k : Nat} {s s' : State ℝ d} (hk : 0 < k) (ha : 0 ≤ s.alpha) (hr : 1 ≤ s.rho)
    (e : outer fuel minim p k s = .ok s') : ∃ r a w, 1 ≤ r ∧ 0 ≤ a ∧ s'.w = minim r a w := by
  induction k generalizing s with
  | zero => omega
  | succ k ih =>
    rw [outer] at e
    cases ei : inner minim p.rhoMax s.alpha s.h s.w fuel s.rho none with
    | error x => rw [ei] at e; cases e
    | ok q =>
      obtain ⟨rho, new⟩ := q
      rw [ei] at e
      simp only [bind, Except.bind] at e
      cases new with
      | none => cases e
      | some q =>
        obtain ⟨hr', r, h1, h2, -⟩ := inner_last hr (by simp) ei
        simp only at e
        have hq1 : q.1 = minim r s.alpha s.w := by rw [h2]
        have hq2 : 0 ≤ q.2 := by rw [h2]; exact (c57_linear hd _).1
        split at e
        · cases e
          exact ⟨r, s.alpha, s.w, h1, ha, hq1⟩
        · rcases Nat.eq_zero_or_pos k with rfl | hk'
          · cases e
            exact ⟨r, s.alpha, s.w, h1, ha, hq1⟩
          · exact ih hk' (by simp only; exact add_nonneg ha (mul_nonneg (by linarith) hq2)) hr' e

/-- C177. With a smaller penalty, at least one round and no threshold, notears_linear returns some edge. -/
theorem c177_some (hd : 0 < d) (hn : 0 < n) {X : Matrix (Fin n) (Fin d) ℝ} {lambda1 : ℝ} (hl : 0 ≤ lambda1) {i j : Fin d} (hij : i ≠ j)
    (hg : lambda1 < |gram X i j|) {minim : ℝ → ℝ → Doubled ℝ d → Doubled ℝ d} (h : Optimal X lambda1 minim) (p : Params ℝ) (hp : 0 < p.maxIter) (hτ : p.wThreshold ≤ 0)
    {fuel : Nat} {W : Matrix (Fin d) (Fin d) ℝ} (e : notearsLinear fuel minim p = .ok W) : W ≠ 0 := by
  unfold notearsLinear at e
  cases eo : outer fuel minim p p.maxIter ⟨(fun _ _ => 0, fun _ _ => 0), 1, 0, none⟩ with
  | error x => rw [eo] at e; cases e
  | ok s =>
    rw [eo] at e
    simp only [bind, Except.bind, pure, Except.pure, Except.ok.injEq] at e
    obtain ⟨r, a, w, hr, ha, hw⟩ := outer_last hd hp le_rfl le_rfl eo
    have := minim_ne hd hn hl hij hg h (zero_lt_one.trans_le hr) ha w
    rw [← hw] at this
    have ht : threshold p.wThreshold (adj s.w) = adj s.w := by
      ext k l
      unfold threshold
      exact if_neg (not_lt.2 (hτ.trans (abs_nonneg _)))
    rw [← e, ht]
    exact this

/-- A case meeting the hypotheses: the same records with penalty 1. -/
example (p : Params ℝ) (hp : 0 < p.maxIter) (hτ : p.wThreshold ≤ 0) (fuel : Nat) : ∃ minim, Optimal reversed 1 minim ∧ notearsLinear fuel minim p ≠ .ok 0 := by
  obtain ⟨minim, h⟩ := c169_optimal (lambda1 := 1) (by norm_num : 0 < 4) indep_reversed (by norm_num) (by norm_num : 0 < 2)
  exact ⟨minim, h, fun e => c177_some (by norm_num) (by norm_num) zero_le_one (i := 0) (j := 1) (by decide) (by rw [gram_reversed.1]; norm_num) h p hp hτ e rfl⟩

/-- C177. For every positive penalty, data that are measured in large enough units leave no edge. -/
theorem c177_units (hd : 0 < d) (hn : 0 < n) {X : Matrix (Fin n) (Fin d) ℝ} (hX : Indep X) {lambda1 : ℝ} (hl : 0 < lambda1) :
    ∃ t₀ > 0, ∀ t : ℝ, 0 < t → t ≤ t₀ → ∀ minim, Optimal (fun s j => t * X s j) lambda1 minim → ∀ p : Params ℝ, 1 < p.rhoMax → ∀ fuel > 0,
      notearsLinear fuel minim p = .ok 0 := by
  obtain ⟨M, hM⟩ : ∃ M, M = ∑ i, ∑ j, |gram X i j| := ⟨_, rfl⟩
  have hM0 : 0 ≤ M := hM ▸ Finset.sum_nonneg fun _ _ => Finset.sum_nonneg fun _ _ => abs_nonneg _
  refine ⟨min 1 (lambda1 / (M + 1)), lt_min one_pos (by positivity), fun t ht0 ht minim hopt p hp fuel hf => ?_⟩
  have ht1 : t ≤ 1 := ht.trans (min_le_left _ _)
  have ht2 : t * (M + 1) ≤ lambda1 := (le_div_iff₀ (by positivity)).1 (ht.trans (min_le_right _ _))
  refine c177_empty hd hn (fun u hu => hX u fun s => ?_) hl.le (fun i j _ => ?_) hopt p hp hf
  · have := hu s
    simp only [mul_assoc, ← Finset.mul_sum] at this
    exact (mul_eq_zero.1 this).resolve_left ht0.ne'
  · have e : gram (fun s j => t * X s j) i j = t ^ 2 * gram X i j := by
      unfold gram
      simp only [of_apply]
      rw [mul_div_assoc', Finset.mul_sum]
      congr 1
      exact Finset.sum_congr rfl fun s _ => by ring
    have hle : |gram X i j| ≤ M := by
      rw [hM]
      exact (Finset.single_le_sum (f := fun j => |gram X i j|) (fun _ _ => abs_nonneg _) (Finset.mem_univ j)).trans
        (Finset.single_le_sum (f := fun i => ∑ j, |gram X i j|) (fun _ _ => Finset.sum_nonneg fun _ _ => abs_nonneg _) (Finset.mem_univ i))
    rw [e, abs_mul, abs_of_nonneg (by positivity)]
    have h3 : t ^ 2 ≤ t := by nlinarith
    calc t ^ 2 * |gram X i j| ≤ t * M := mul_le_mul h3 hle (abs_nonneg _) ht0.le
      _ ≤ lambda1 := by nlinarith

/-- A case meeting the hypotheses: the same records, whose covariance is 2, and the penalty 1/10; in large units no edge is found. -/
example : ∃ t > 0, ∀ minim, Optimal (fun s j => t * reversed s j) (1 / 10) minim → ∀ p : Params ℝ, 1 < p.rhoMax → notearsLinear 1 minim p = .ok 0 := by
  obtain ⟨t, ht, h⟩ := c177_units (by norm_num) (by norm_num : 0 < 4) indep_reversed (by norm_num : (0 : ℝ) < 1 / 10)
  exact ⟨t, ht, fun minim ho p hp => h t ht le_rfl minim ho p hp 1 one_pos⟩

section drawn
open MeasureTheory ProbabilityTheory Filter Sample Perturb
open scoped ProbabilityTheory Topology

variable {Ω : Type} [MeasurableSpace Ω] {P : Measure Ω} [IsProbabilityMeasure P]

/-- C177. Drawn records and a penalty above all covariances of the distribution: the probability that notears_linear returns no edge tends to one, whatever the model. -/
theorem c177_drawn (hd : 0 < d) {X : ℕ → Ω → Fin d → ℝ} (hX : Drawn P X) (hf : Free P X) {lambda1 : ℝ} (hl : 0 < lambda1)
    (hg : ∀ i j, i ≠ j → |cov[fun ω => X 0 ω i, fun ω => X 0 ω j; P]| < lambda1) (p : Params ℝ) (hp : 1 < p.rhoMax) {fuel : Nat} (hfuel : 0 < fuel) :
    Tendsto (fun N => P {ω | (∃ minim, Optimal (centre .l2 (rows X N ω)) lambda1 minim) ∧
      ∀ minim, Optimal (centre .l2 (rows X N ω)) lambda1 minim → notearsLinear fuel minim p = .ok 0}) atTop (𝓝 1) := by
  have hC := posDef_free hX hf
  have hpos : ∀ a : Fin d → ℝ, a ≠ 0 → 0 < covar (covOf P X) a a := fun a ha => by
    rw [covar_dot]; exact (posDef_iff.1 hC).2 a ha
  obtain ⟨δ2, hδ2, hsq⟩ := sq_near hC (by norm_num : (0 : ℝ) < 1 / 2)
  obtain ⟨κ, hκ, hκ'⟩ := below (ι := Fin d × Fin d) (f := fun q => if q.1 = q.2 then 1 else lambda1 - |covOf P X q.1 q.2|) fun q => by
    split
    · exact one_pos
    · next h => exact sub_pos.2 (hg q.1 q.2 h)
  refine tendsto_good hX fun D hD => ?_
  have hlim : Tendsto (fun N : ℕ => D / √(N : ℝ)) atTop (𝓝 0) := (Real.tendsto_sqrt_atTop.comp tendsto_natCast_atTop_atTop).const_div_atTop D
  obtain ⟨N0, hN0⟩ := eventually_atTop.1 (hlim.eventually (ge_mem_nhds (lt_min hδ2 hκ)))
  refine ⟨N0 + 1, fun N hN ω hcov => ?_⟩
  have hb : D / √(N : ℝ) ≤ min δ2 κ := hN0 N (by omega)
  have hc := hsq (covN X N ω) fun u v => (hcov u v).trans (hb.trans (min_le_left _ _))
  have hind : Indep (centre .l2 (rows X N ω)) := indep_gram fun a ha => by
    rw [gram_centre]
    have q1 := (abs_le.1 (hc a)).1
    have q2 := hpos a ha
    linarith
  refine ⟨c169_optimal (by omega) hind hl.le hd, fun minim hopt => c177_empty hd (by omega) hind hl.le (fun i j hij => ?_) hopt p hp hfuel⟩
  rw [gram_centre]
  have q1 := hκ' (i, j)
  simp only [if_neg hij] at q1
  have q2 := (hcov i j).trans (hb.trans (min_le_right _ _))
  have q3 := abs_sub_abs_le_abs_sub (covN X N ω i j) (covOf P X i j)
  linarith

/-- C177. Drawn records and a penalty below a covariance: the probability that notears_linear without a threshold returns no edge tends to zero. -/
theorem c177_drawn_some (hd : 0 < d) {X : ℕ → Ω → Fin d → ℝ} (hX : Drawn P X) {lambda1 : ℝ} (hl : 0 ≤ lambda1) {i j : Fin d} (hij : i ≠ j)
    (hg : lambda1 < |cov[fun ω => X 0 ω i, fun ω => X 0 ω j; P]|) (p : Params ℝ) (hp : 0 < p.maxIter) (hτ : p.wThreshold ≤ 0) (fuel : Nat) :
    Tendsto (fun N => P {ω | ∃ minim, Optimal (centre .l2 (rows X N ω)) lambda1 minim ∧ notearsLinear fuel minim p = .ok 0}) atTop (𝓝 0) := by
  have := tendsto_bad hX (Good := fun N ω => ¬ ∃ minim, Optimal (centre .l2 (rows X N ω)) lambda1 minim ∧ notearsLinear fuel minim p = .ok 0) fun D hD => by
    have hlim : Tendsto (fun N : ℕ => D / √(N : ℝ)) atTop (𝓝 0) := (Real.tendsto_sqrt_atTop.comp tendsto_natCast_atTop_atTop).const_div_atTop D
    obtain ⟨N0, hN0⟩ := eventually_atTop.1 (hlim.eventually (gt_mem_nhds (sub_pos.2 hg)))
    refine ⟨N0 + 1, fun N hN ω hn => ?_⟩
    rintro ⟨minim, hopt, e⟩
    refine c177_some hd (by omega) hl hij ?_ hopt p hp hτ e rfl
    rw [gram_centre]
    have q1 : D / √(N : ℝ) < |covOf P X i j| - lambda1 := hN0 N (by omega)
    have q2 := hn.1 i j
    have q3 := abs_sub_abs_le_abs_sub (covOf P X i j) (covN X N ω i j)
    rw [abs_sub_comm] at q3
    linarith
  simpa only [not_not] using this

/-- A case meeting the hypotheses: drawn records of a chain, with covariance 1 of the first two variables. The hypotheses of c177_drawn are met in c177_fixed_false. -/
example (p : Params ℝ) (hp : 0 < p.maxIter) (hτ : p.wThreshold ≤ 0) (fuel : Nat) :
    ∃ (Ω : Type) (_ : MeasurableSpace Ω) (P : Measure Ω) (_ : IsProbabilityMeasure P) (X : ℕ → Ω → Fin 3 → ℝ), Drawn P X ∧
      Tendsto (fun N => P {ω | ∃ minim, Optimal (centre .l2 (rows X N ω)) (1 / 10) minim ∧ notearsLinear fuel minim p = .ok 0}) atTop (𝓝 0) := by
  obtain ⟨Ω, mΩ, P, hP, X, hX, hC⟩ := Consistency.exDrawn
  have h : cov[fun ω => X 0 ω 0, fun ω => X 0 ω 1; P] = Fisher.exCov 0 1 := congrFun (congrFun hC 0) 1
  exact ⟨Ω, mΩ, P, hP, X, hX, c177_drawn_some (by decide) hX (by norm_num) (i := 0) (j := 1) (by decide) (by rw [h]; norm_num [Fisher.exCov]) p hp hτ fuel⟩

omit [IsProbabilityMeasure P] in
/-- Linear functions of drawn records are drawn. -/
theorem drawn_map {e : ℕ} {X : ℕ → Ω → Fin d → ℝ} (hX : Drawn P X) (A : Matrix (Fin d) (Fin e) ℝ) : Drawn P fun s ω v => ∑ l, X s ω l * A l v := by
  have hg : Measurable fun (x : Fin d → ℝ) (v : Fin e) => ∑ l, x l * A l v := measurable_pi_lambda _ fun v =>
    Finset.measurable_fun_sum _ fun l _ => (measurable_pi_apply l).mul_const _
  exact ⟨hX.indep.comp (fun _ (x : Fin d → ℝ) (v : Fin e) => ∑ l, x l * A l v) fun _ => hg, fun s => (hX.ident s).comp hg,
    fun v => memLp_finsetSum _ fun l _ => (hX.moment l).mul_const _⟩

open Consistency Fisher in
/-- C177, intended of c175_equal with the penalty 0.1 of linear.py L109 in place of a small one: false. The second variable is half the first plus an error, the errors are
uncorrelated and have variance 1/10, and the weight is above the default threshold 0.3; the probability that notears_linear returns no edge tends to one. -/
theorem c177_fixed_false : ∃ (Ω : Type) (_ : MeasurableSpace Ω) (P : Measure Ω) (_ : IsProbabilityMeasure P) (X : ℕ → Ω → Fin 2 → ℝ), Drawn P X ∧
    EqualErrors P X (edge 0 1 (1 / 2)) (1 / 10) ∧ ∀ p : Params ℝ, 1 < p.rhoMax → ∀ fuel > 0,
      Tendsto (fun N => P {ω | (∃ minim, Optimal (centre .l2 (rows X N ω)) (1 / 10) minim) ∧
        ∀ minim, Optimal (centre .l2 (rows X N ω)) (1 / 10) minim → notearsLinear fuel minim p = .ok 0}) atTop (𝓝 1) := by
  obtain ⟨Ω, mΩ, P, hP, X0, hX0, hC⟩ := exDrawn
  obtain ⟨c, hc⟩ : ∃ c, c = √(1 / 10 : ℝ) := ⟨_, rfl⟩
  have hcc : c * c = 1 / 10 := hc ▸ Real.mul_self_sqrt (by norm_num)
  have hD := drawn_map hX0 !![c, -c / 2; 0, c; 0, 0]
  obtain ⟨X, hX⟩ : ∃ X : ℕ → Ω → Fin 2 → ℝ, X = fun s ω v => ∑ l, X0 s ω l * !![c, -c / 2; 0, c; 0, 0] l v := ⟨_, rfl⟩
  rw [← hX] at hD
  have hCX : covOf P X = !![1 / 10, 1 / 20; 1 / 20, 1 / 8] := by
    ext a b
    unfold covOf
    rw [of_apply, hX]
    dsimp only
    rw [var_covar hX0, hC]
    fin_cases a <;> fin_cases b <;> simp [Spec.covar, exCov, Fin.sum_univ_three] <;> nlinarith [hcc]
  have he : EqualErrors P X (edge 0 1 (1 / 2)) (1 / 10) := fun i j => by
    rw [resid_fun, resid_fun, var_covar hD, hCX]
    fin_cases i <;> fin_cases j <;> simp [Spec.covar, edge, Fin.sum_univ_two] <;> norm_num
  refine ⟨Ω, mΩ, P, hP, X, hD, he, fun p hp fuel hf => ?_⟩
  refine c177_drawn (by decide) hD (he.free hD (by norm_num) (edge_acyclic (by decide) _)) (by norm_num) (fun i j hij => ?_) p hp hf
  have : cov[fun ω => X 0 ω i, fun ω => X 0 ω j; P] = !![1 / 10, 1 / 20; 1 / 20, 1 / 8] i j := congrFun (congrFun hCX i) j
  rw [this]
  fin_cases i <;> fin_cases j
  · exact absurd rfl hij
  · norm_num [abs_of_pos]
  · norm_num [abs_of_pos]
  · exact absurd rfl hij

end drawn

end Cdmir.Notears
