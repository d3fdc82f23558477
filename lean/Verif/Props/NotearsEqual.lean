import Verif.Lemmas.NotearsOpt

/-! C169: notears_linear with an optimiser that finds a global minimum. With noise of equal variances it finds the model; otherwise the variances decide. -/

namespace Cdmir.Notears
open BigOperators Spec

variable {n d : Nat}

/-- linear.py L76: the bounds of the optimiser. -/
def Box (w : Doubled ℝ d) : Prop := (∀ i j, 0 ≤ w.1 i j ∧ 0 ≤ w.2 i j) ∧ ∀ i, w.1 i i = 0 ∧ w.2 i i = 0

/-- `sopt.minimize` (linear.py L82) finds a global minimum of the objective within the bounds. -/
def Optimal (X : Matrix (Fin n) (Fin d) ℝ) (lambda1 : ℝ) (minim : ℝ → ℝ → Doubled ℝ d → Doubled ℝ d) : Prop :=
  ∀ rho alpha w0, 0 < rho → 0 ≤ alpha → Box (minim rho alpha w0) ∧ ∀ w, Box w → ∃ v g v' g',
    func realElem .l2 X lambda1 rho alpha (minim rho alpha w0) = some (v, g) ∧ func realElem .l2 X lambda1 rho alpha w = some (v', g') ∧ v ≤ v'

theorem loss_sq (X : Matrix (Fin n) (Fin d) ℝ) (W : Matrix (Fin d) (Fin d) ℝ) : ∃ g, loss realElem .l2 X W = some (sq X W, g) := by
  have h : ((loss realElem .l2 X W).get rfl).1 = sq X W := by
    change 1 / 2 / (n : ℝ) * total (had _ _) = _
    unfold sq total had
    simp only [Matrix.mul_apply, pow_two]
  exact ⟨((loss realElem .l2 X W).get rfl).2, congrArg (fun v => some (v, ((loss realElem .l2 X W).get rfl).2)) h⟩

theorem func_sq (X : Matrix (Fin n) (Fin d) ℝ) (lambda1 rho alpha : ℝ) (w : Doubled ℝ d) : ∃ g, func realElem .l2 X lambda1 rho alpha w =
    some (sq X (adj w) + 1 / 2 * rho * (hW (adj w)).1 * (hW (adj w)).1 + alpha * (hW (adj w)).1 + lambda1 * (total w.1 + total w.2), g) := by
  obtain ⟨g, hg⟩ := loss_sq X (adj w)
  refine ⟨(fun i j => g i j + (rho * (hW (adj w)).1 + alpha) * (hW (adj w)).2 i j + lambda1,
    fun i j => -(g i j + (rho * (hW (adj w)).1 + alpha) * (hW (adj w)).2 i j) + lambda1), ?_⟩
  change Option.bind (loss realElem .l2 X (adj w)) (fun p => some (p.1 + 1 / 2 * rho * (hW (adj w)).1 * (hW (adj w)).1 + alpha * (hW (adj w)).1 +
    lambda1 * (total w.1 + total w.2), ((fun i j => p.2 i j + (rho * (hW (adj w)).1 + alpha) * (hW (adj w)).2 i j + lambda1,
    fun i j => -(p.2 i j + (rho * (hW (adj w)).1 + alpha) * (hW (adj w)).2 i j) + lambda1) : Doubled ℝ d))) = _
  rw [hg]
  rfl

/-- The doubled variables of a matrix. -/
noncomputable def split (B : Matrix (Fin d) (Fin d) ℝ) : Doubled ℝ d := (fun i j => max (B i j) 0, fun i j => max (-B i j) 0)

theorem adj_split (B : Matrix (Fin d) (Fin d) ℝ) : adj (split B) = B := by
  funext i j
  change max (B i j) 0 - max (-B i j) 0 = B i j
  rcases le_total 0 (B i j) with h | h
  · rw [max_eq_left h, max_eq_right (by linarith), sub_zero]
  · rw [max_eq_right h, max_eq_left (by linarith)]
    ring

theorem box_split {B : Matrix (Fin d) (Fin d) ℝ} (h : ∀ i, B i i = 0) : Box (split B) :=
  ⟨fun _ _ => ⟨le_max_right _ _, le_max_right _ _⟩, fun i => by simp [split, h i]⟩

theorem total_split (B : Matrix (Fin d) (Fin d) ℝ) : total (split B).1 + total (split B).2 = ∑ i, ∑ j, |B i j| := by
  unfold total split
  simp only [← Finset.sum_add_distrib]
  refine Finset.sum_congr rfl fun i _ => Finset.sum_congr rfl fun j _ => ?_
  rcases le_total 0 (B i j) with h | h
  · rw [max_eq_left h, max_eq_right (by linarith), abs_of_nonneg h, add_zero]
  · rw [max_eq_right h, max_eq_left (by linarith), abs_of_nonpos h, zero_add]

theorem total_box {w : Doubled ℝ d} (hw : Box w) : ∑ i, ∑ j, |adj w i j| ≤ total w.1 + total w.2 := by
  unfold total
  simp only [← Finset.sum_add_distrib]
  refine Finset.sum_le_sum fun i _ => Finset.sum_le_sum fun j _ => ?_
  obtain ⟨h1, h2⟩ := hw.1 i j
  exact abs_le.2 ⟨by change -_ ≤ w.1 i j - w.2 i j; linarith, by change w.1 i j - w.2 i j ≤ _; linarith⟩

theorem diag_zero (hd : 0 < d) {B : Matrix (Fin d) (Fin d) ℝ} (hB : (hW B).1 = 0) (i : Fin d) : B i i = 0 := by
  by_contra h
  exact ((c57_linear hd B).2.1 hB) i (Relation.TransGen.single h)

/-- What an optimal point is not worse than. -/
theorem Optimal.bound (hd : 0 < d) {X : Matrix (Fin n) (Fin d) ℝ} {lambda1 : ℝ} {minim : ℝ → ℝ → Doubled ℝ d → Doubled ℝ d} (h : Optimal X lambda1 minim)
    (hl : 0 ≤ lambda1) {B : Matrix (Fin d) (Fin d) ℝ} (hB : (hW B).1 = 0) {r a : ℝ} {w : Doubled ℝ d} (hr : 1 ≤ r) (ha : 0 ≤ a) :
    sq X (adj (minim r a w)) ≤ sq X B + lambda1 * ∑ i, ∑ j, |B i j| ∧
      r * (hW (adj (minim r a w))).1 ^ 2 ≤ 2 * (sq X B + lambda1 * ∑ i, ∑ j, |B i j|) := by
  obtain ⟨hbox, hmin⟩ := h r a w (by linarith) ha
  obtain ⟨v, g, v', g', h1, h2, hv⟩ := hmin (split B) (box_split (diag_zero hd hB))
  obtain ⟨g1, e1⟩ := func_sq X lambda1 r a (minim r a w)
  obtain ⟨g2, e2⟩ := func_sq X lambda1 r a (split B)
  rw [h1, Option.some.injEq, Prod.mk.injEq] at e1
  rw [h2, Option.some.injEq, Prod.mk.injEq, adj_split, hB, total_split] at e2
  rw [e1.1, e2.1] at hv
  have hh := (c57_linear hd (adj (minim r a w))).1
  have ht : 0 ≤ total (minim r a w).1 + total (minim r a w).2 :=
    add_nonneg (Finset.sum_nonneg fun i _ => Finset.sum_nonneg fun j _ => (hbox.1 i j).1) (Finset.sum_nonneg fun i _ => Finset.sum_nonneg fun j _ => (hbox.1 i j).2)
  have h3 := mul_nonneg ha hh
  have h4 := mul_nonneg hl ht
  have h5 : 0 ≤ 1 / 2 * r * (hW (adj (minim r a w))).1 * (hW (adj (minim r a w))).1 := by positivity
  have h6 := sq_nonneg' X (adj (minim r a w))
  constructor <;> nlinarith

/-- The weights are above the threshold by a positive amount. -/
theorem exists_gap (hd : 0 < d) {B : Matrix (Fin d) (Fin d) ℝ} {τ : ℝ} (hτB : ∀ i j, B i j ≠ 0 → τ < |B i j|) : ∃ g, 0 < g ∧ ∀ i j, B i j ≠ 0 → τ + g ≤ |B i j| := by
  have : Nonempty (Fin d × Fin d) := ⟨(⟨0, hd⟩, ⟨0, hd⟩)⟩
  classical
  let f : Fin d × Fin d → ℝ := fun q => if B q.1 q.2 ≠ 0 then |B q.1 q.2| - τ else 1
  obtain ⟨q, hq⟩ := Finite.exists_min f
  refine ⟨f q, ?_, fun i j hij => ?_⟩
  · simp only [f]
    split
    · rename_i h
      have := hτB _ _ h
      linarith
    · exact one_pos
  · have := hq (i, j)
    simp only [f] at this ⊢
    rw [if_pos hij] at this
    linarith

/-- Bounds for the penalty and the parameters that serve for all data at which the loss of `B` is at most `M` and the nearly optimal matrices are near `B`. -/
theorem loop_near (hd : 0 < d) {B : Matrix (Fin d) (Fin d) ℝ} (hB0 : (hW B).1 = 0) {τ ε gap δ0 M : ℝ} (hε : 0 < ε) (hτ : 0 < τ)
    (hgap' : ∀ i j, B i j ≠ 0 → τ + gap ≤ |B i j|) (hδ0 : 0 < δ0) (hM : 0 ≤ M) :
    ∃ δ, 0 < δ ∧ ∃ N, ∀ lambda1, 0 ≤ lambda1 → lambda1 ≤ δ → ∀ p : Params ℝ, p.hTol ≤ δ → 1 / δ ≤ p.rhoMax → 1 < p.rhoMax → N ≤ p.maxIter → p.wThreshold = τ →
      ∃ fuel, ∀ fuel' ≥ fuel, ∀ (n : Nat) (X : Matrix (Fin n) (Fin d) ℝ), sq X B ≤ M →
        (∀ W : Matrix (Fin d) (Fin d) ℝ, sq X W ≤ sq X B + δ0 → (hW W).1 ≤ δ0 → ∀ i j, |W i j - B i j| < min ε (min τ gap)) → ∀ minim, Optimal X lambda1 minim →
        ∃ W, notearsLinear fuel' minim p = .ok W ∧ ∀ i j, (W i j ≠ 0 ↔ B i j ≠ 0) ∧ |W i j - B i j| < ε := by
  set b1 := ∑ i, ∑ j, |B i j|
  have hb1 : 0 ≤ b1 := Finset.sum_nonneg fun _ _ => Finset.sum_nonneg fun _ _ => abs_nonneg _
  set C := 2 * (M + δ0)
  have hC0 : 0 < C := by
    simp only [C]
    linarith
  obtain ⟨N, hN⟩ := pow_unbounded_of_one_lt (C / δ0 ^ 2) (by norm_num : (1 : ℝ) < 4)
  refine ⟨min δ0 (min (δ0 / (b1 + 1)) (δ0 ^ 2 / (10 * C))), lt_min hδ0 (lt_min (by positivity) (by positivity)), N + 1, ?_⟩
  intro lambda1 hl0 hl p htol hrho hrho1 hit hthr
  obtain ⟨fuel, hfuel⟩ := c59_terminates (d := d) p hrho1
  refine ⟨fuel, fun fuel' hf n X hXM hnear minim hopt => ?_⟩
  obtain ⟨W, hW'⟩ := hfuel fuel' hf minim
  refine ⟨W, hW', ?_⟩
  have hlb : lambda1 * b1 ≤ δ0 := by
    have h1 : lambda1 ≤ δ0 / (b1 + 1) := hl.trans ((min_le_right _ _).trans (min_le_left _ _))
    rw [le_div_iff₀ (by positivity)] at h1
    nlinarith
  have hR : 10 * C ≤ p.rhoMax * δ0 ^ 2 := by
    have h0 : 0 < min δ0 (min (δ0 / (b1 + 1)) (δ0 ^ 2 / (10 * C))) := lt_min hδ0 (lt_min (by positivity) (by positivity))
    have h1 : min δ0 (min (δ0 / (b1 + 1)) (δ0 ^ 2 / (10 * C))) ≤ δ0 ^ 2 / (10 * C) := (min_le_right _ _).trans (min_le_right _ _)
    have h2 : 1 / (δ0 ^ 2 / (10 * C)) ≤ p.rhoMax := (one_div_le_one_div_of_le h0 h1).trans hrho
    rw [one_div_div, div_le_iff₀ (by positivity)] at h2
    exact h2
  unfold notearsLinear at hW'
  cases e : outer fuel' minim p p.maxIter ⟨(fun _ _ => 0, fun _ _ => 0), 1, 0, none⟩ with
  | error x => rw [e] at hW'; exact absurd hW' (by simp [bind, Except.bind])
  | ok s =>
    rw [e] at hW'
    simp only [bind, Except.bind, pure, Except.pure, Except.ok.injEq] at hW'
    obtain ⟨r, a, w, hr, ha, hw, hh⟩ := outer_small hd (C := C) hδ0 (fun r a w hr ha => by
      have := (hopt.bound hd hl0 hB0 (w := w) hr ha).2
      simp only [C]
      linarith) (htol.trans (min_le_left _ _)) hR (k := p.maxIter) (by omega) le_rfl le_rfl (by
        change C ≤ (δ0 * 4 ^ (p.maxIter - 1)) ^ 2
        have h1 : (4 : ℝ) ^ N ≤ 4 ^ (p.maxIter - 1) := pow_le_pow_right₀ (by norm_num) (by omega)
        have h2 : (1 : ℝ) ≤ 4 ^ (p.maxIter - 1) := one_le_pow₀ (by norm_num)
        rw [div_lt_iff₀ (by positivity)] at hN
        have h3 : (4 : ℝ) ^ N ≤ (4 ^ (p.maxIter - 1)) ^ 2 := by nlinarith
        have h4 : (4 : ℝ) ^ N * δ0 ^ 2 ≤ (4 ^ (p.maxIter - 1)) ^ 2 * δ0 ^ 2 := mul_le_mul_of_nonneg_right h3 (by positivity)
        nlinarith) e
    have hsq := (hopt.bound hd hl0 hB0 (w := w) hr ha).1
    rw [← hw] at hsq
    have hn' := hnear (adj s.w) (by linarith) hh
    intro i j
    have hij := hn' i j
    rw [lt_min_iff, lt_min_iff] at hij
    obtain ⟨h1, h2, h3⟩ := hij
    rw [← hW']
    unfold threshold
    rw [hthr]
    by_cases hb : B i j = 0
    · rw [hb, sub_zero] at h2
      rw [if_pos h2, hb]
      simpa using hε
    · have h4 := hgap' i j hb
      have h5 : τ ≤ |adj s.w i j| := by
        have := abs_sub_abs_le_abs_sub (B i j) (adj s.w i j)
        rw [abs_sub_comm] at this
        linarith
      rw [if_neg (not_lt.2 h5)]
      refine ⟨⟨fun _ => hb, fun _ h0 => ?_⟩, h1⟩
      rw [h0, abs_zero] at h5
      linarith

/-- C169: whatever the data, if one acyclic matrix is better than all others, the loop with an optimal minimiser ends near it, and the threshold leaves exactly
its edges. -/
theorem c169_loop (hd : 0 < d) (hn : 0 < n) {X : Matrix (Fin n) (Fin d) ℝ} (hX : Indep X) {B : Matrix (Fin d) (Fin d) ℝ} (hB0 : (hW B).1 = 0)
    (hB : ∀ W : Matrix (Fin d) (Fin d) ℝ, (hW W).1 = 0 → W ≠ B → sq X B < sq X W) {τ ε : ℝ} (hτ : 0 < τ) (hτB : ∀ i j, B i j ≠ 0 → τ < |B i j|) (hε : 0 < ε) :
    ∃ δ, 0 < δ ∧ ∃ N, ∀ lambda1, 0 ≤ lambda1 → lambda1 ≤ δ → ∀ p : Params ℝ, p.hTol ≤ δ → 1 / δ ≤ p.rhoMax → 1 < p.rhoMax → N ≤ p.maxIter → p.wThreshold = τ →
      ∃ fuel, ∀ fuel' ≥ fuel, ∀ minim, Optimal X lambda1 minim →
        ∃ W, notearsLinear fuel' minim p = .ok W ∧ ∀ i j, (W i j ≠ 0 ↔ B i j ≠ 0) ∧ |W i j - B i j| < ε := by
  obtain ⟨gap, hgap, hgap'⟩ := exists_gap hd hτB
  obtain ⟨δ0, hδ0, hnear⟩ := near_best hd hn hX hB (lt_min hε (lt_min hτ hgap))
  obtain ⟨δ, hδ, N, h⟩ := loop_near hd hB0 hε hτ hgap' hδ0 (sq_nonneg' X B)
  refine ⟨δ, hδ, N, fun lambda1 hl0 hl p h1 h2 h3 h4 h5 => ?_⟩
  obtain ⟨fuel, hf⟩ := h lambda1 hl0 hl p h1 h2 h3 h4 h5
  exact ⟨fuel, fun fuel' hge minim hopt => hf fuel' hge n X le_rfl hnear minim hopt⟩

/-- The residuals of the model `B` on the centred data are uncorrelated and have the variance `v`. -/
def EqualNoise (X : Matrix (Fin n) (Fin d) ℝ) (B : Matrix (Fin d) (Fin d) ℝ) (v : ℝ) : Prop :=
  ∀ i j, (∑ s, (X s i - ∑ l, X s l * B l i) * (X s j - ∑ l, X s l * B l j)) / n = if i = j then v else 0

theorem resid_apply (X : Matrix (Fin n) (Fin d) ℝ) (W : Matrix (Fin d) (Fin d) ℝ) (s : Fin n) (j : Fin d) :
    (X * (1 - W) : Matrix (Fin n) (Fin d) ℝ) s j = X s j - ∑ l, X s l * W l j := by
  rw [Matrix.mul_sub, Matrix.mul_one, Matrix.sub_apply, Matrix.mul_apply]

theorem EqualNoise.gram (hn : 0 < n) {X : Matrix (Fin n) (Fin d) ℝ} {B : Matrix (Fin d) (Fin d) ℝ} {v : ℝ} (h : EqualNoise X B v) :
    (X * (1 - B)).transpose * (X * (1 - B)) = (n * v) • (1 : Matrix (Fin d) (Fin d) ℝ) := by
  have hn' : (n : ℝ) ≠ 0 := Nat.cast_ne_zero.2 hn.ne'
  ext i j
  rw [Matrix.mul_apply, Matrix.smul_apply, Matrix.one_apply, smul_eq_mul]
  have := h i j
  rw [div_eq_iff hn'] at this
  simp only [Matrix.transpose_apply, resid_apply]
  rw [this]
  split <;> ring

theorem sum_sq_trace {a b : Nat} (A : Matrix (Fin a) (Fin b) ℝ) : ∑ i, ∑ j, A i j ^ 2 = (A.transpose * A).trace := by
  rw [Finset.sum_comm]
  simp only [Matrix.trace, Matrix.diag, Matrix.mul_apply, Matrix.transpose_apply, pow_two]

theorem gram_mul {R : Matrix (Fin n) (Fin d) ℝ} {c : ℝ} (h : R.transpose * R = c • (1 : Matrix (Fin d) (Fin d) ℝ)) (M : Matrix (Fin d) (Fin d) ℝ) :
    (R * M).transpose * (R * M) = c • (M.transpose * M) := by
  rw [Matrix.transpose_mul, Matrix.mul_assoc, ← Matrix.mul_assoc R.transpose, h, Matrix.smul_mul, Matrix.one_mul, Matrix.mul_smul]

section equal
variable {X : Matrix (Fin n) (Fin d) ℝ} {B : Matrix (Fin d) (Fin d) ℝ} {v : ℝ} (hn : 0 < n) (hv : 0 < v) (h : EqualNoise X B v)
  (ac : Acyclic fun i j => B i j ≠ 0)
include hn hv h ac

theorem EqualNoise.sq_eq (W : Matrix (Fin d) (Fin d) ℝ) : sq X W = v / 2 * ∑ i, ∑ j, ((1 - B)⁻¹ * (1 - W)) i j ^ 2 := by
  have hn' : (n : ℝ) ≠ 0 := Nat.cast_ne_zero.2 hn.ne'
  have hu : IsUnit (1 - B).det := by rw [det_one ac fun _ _ q => q]; exact isUnit_one
  have hX : X * (1 - W) = (X * (1 - B)) * ((1 - B)⁻¹ * (1 - W)) := by
    rw [Matrix.mul_assoc, ← Matrix.mul_assoc (1 - B), Matrix.mul_nonsing_inv _ hu, Matrix.one_mul]
  unfold sq
  simp only [← resid_apply]
  rw [sum_sq_trace, sum_sq_trace, hX, gram_mul (h.gram hn), Matrix.trace_smul, smul_eq_mul]
  field_simp

theorem EqualNoise.indep : Indep X := by
  intro t ht
  have hu : IsUnit (1 - B).det := by rw [det_one ac fun _ _ q => q]; exact isUnit_one
  have h1 : X.mulVec t = 0 := funext ht
  have h2 : (X * (1 - B)).mulVec ((1 - B)⁻¹.mulVec t) = 0 := by
    rw [Matrix.mulVec_mulVec, Matrix.mul_assoc, Matrix.mul_nonsing_inv _ hu, Matrix.mul_one, h1]
  have h3 : ((n * v) • (1 : Matrix (Fin d) (Fin d) ℝ)).mulVec ((1 - B)⁻¹.mulVec t) = 0 := by
    rw [← h.gram hn, ← Matrix.mulVec_mulVec, h2, Matrix.mulVec_zero]
  rw [Matrix.smul_mulVec, Matrix.one_mulVec] at h3
  have h4 : (1 - B)⁻¹.mulVec t = 0 := (smul_eq_zero.1 h3).resolve_left (mul_ne_zero (Nat.cast_ne_zero.2 hn.ne') hv.ne')
  have h5 := congrArg (1 - B).mulVec h4
  rwa [Matrix.mulVec_mulVec, Matrix.mul_nonsing_inv _ hu, Matrix.one_mulVec, Matrix.mulVec_zero] at h5

theorem EqualNoise.best : sq X B = d * v / 2 ∧ ∀ W : Matrix (Fin d) (Fin d) ℝ, (Acyclic fun i j => W i j ≠ 0) → W ≠ B → sq X B < sq X W := by
  have hu : IsUnit (1 - B).det := by rw [det_one ac fun _ _ q => q]; exact isUnit_one
  have e : sq X B = d * v / 2 := by
    rw [h.sq_eq hn hv ac, Matrix.nonsing_inv_mul _ hu, sum_sq_trace]
    simp
    ring
  refine ⟨e, fun W hW hne => ?_⟩
  have hdet : ((1 - B)⁻¹ * (1 - W)).det = 1 := by
    rw [Matrix.det_mul, Matrix.det_nonsing_inv, det_one ac fun _ _ q => q, det_one hW fun _ _ q => q]
    simp
  obtain ⟨h1, h2⟩ := squares_ge hdet
  have hlt : (d : ℝ) < ∑ i, ∑ j, ((1 - B)⁻¹ * (1 - W)) i j ^ 2 := by
    refine lt_of_le_of_ne h1 fun he => hne (same_precision ac hW ?_)
    have h3 := h2 he.symm
    have h4 : 1 - W = (1 - B) * ((1 - B)⁻¹ * (1 - W)) := by
      rw [← Matrix.mul_assoc, Matrix.mul_nonsing_inv _ hu, Matrix.one_mul]
    rw [h4, Matrix.transpose_mul, Matrix.mul_assoc, ← Matrix.mul_assoc ((1 - B)⁻¹ * (1 - W)), h3, Matrix.one_mul]
  rw [e, h.sq_eq hn hv ac W]
  nlinarith

end equal

/-- C169. Data whose residuals from an acyclic linear model are uncorrelated and have equal variances: the squared loss of linear.py is `d v / 2` at the model,
and greater at every other matrix at which the constraint is zero. -/
theorem c169_equal (hd : 0 < d) (hn : 0 < n) {X : Matrix (Fin n) (Fin d) ℝ} {B : Matrix (Fin d) (Fin d) ℝ} {v : ℝ} (hv : 0 < v) (ac : Acyclic fun i j => B i j ≠ 0)
    (h : EqualNoise (centre .l2 X) B v) {W : Matrix (Fin d) (Fin d) ℝ} (hW0 : (hW W).1 = 0) (hne : W ≠ B) :
    (hW B).1 = 0 ∧ ∃ g l g', loss realElem .l2 (centre .l2 X) B = some (d * v / 2, g) ∧ loss realElem .l2 (centre .l2 X) W = some (l, g') ∧ d * v / 2 < l := by
  obtain ⟨h1, h2⟩ := h.best hn hv ac
  obtain ⟨g, hg⟩ := loss_sq (centre .l2 X) B
  obtain ⟨g', hg'⟩ := loss_sq (centre .l2 X) W
  refine ⟨(c57_linear hd B).2.2 ac, g, _, g', h1 ▸ hg, hg', ?_⟩
  rw [← h1]
  exact h2 W ((c57_linear hd W).2.1 hW0) hne

/-- C169. With an optimiser that finds a global minimum, notears_linear returns exactly the edges of the model, and weights as near to it as wanted, once the
penalty and the tolerance are small enough and `rho_max` and `max_iter` large enough. -/
theorem c169_recovers (hd : 0 < d) (hn : 0 < n) {X : Matrix (Fin n) (Fin d) ℝ} {B : Matrix (Fin d) (Fin d) ℝ} {v : ℝ} (hv : 0 < v)
    (ac : Acyclic fun i j => B i j ≠ 0) (h : EqualNoise (centre .l2 X) B v) {τ ε : ℝ} (hτ : 0 < τ) (hτB : ∀ i j, B i j ≠ 0 → τ < |B i j|) (hε : 0 < ε) :
    ∃ δ, 0 < δ ∧ ∃ N, ∀ lambda1, 0 ≤ lambda1 → lambda1 ≤ δ → ∀ p : Params ℝ, p.hTol ≤ δ → 1 / δ ≤ p.rhoMax → 1 < p.rhoMax → N ≤ p.maxIter → p.wThreshold = τ →
      ∃ fuel, ∀ fuel' ≥ fuel, ∀ minim, Optimal (centre .l2 X) lambda1 minim →
        ∃ W, notearsLinear fuel' minim p = .ok W ∧ ∀ i j, (W i j ≠ 0 ↔ B i j ≠ 0) ∧ |W i j - B i j| < ε :=
  c169_loop hd hn (h.indep hn hv ac) ((c57_linear hd B).2.2 ac) (fun W hW0 hne => (h.best hn hv ac).2 W ((c57_linear hd W).2.1 hW0) hne) hτ hτB hε

/-- C169: an optimiser as in the theorems above exists for all data with independent columns. -/
theorem c169_optimal (hn : 0 < n) {X : Matrix (Fin n) (Fin d) ℝ} (hX : Indep X) {lambda1 : ℝ} (hl : 0 ≤ lambda1) (hd : 0 < d) : ∃ minim, Optimal X lambda1 minim := by
  have key : ∀ rho alpha : ℝ, 0 < rho → 0 ≤ alpha → ∃ W : Matrix (Fin d) (Fin d) ℝ, (∀ i, W i i = 0) ∧ ∀ W' : Matrix (Fin d) (Fin d) ℝ, (∀ i, W' i i = 0) →
      sq X W + 1 / 2 * rho * (hW W).1 * (hW W).1 + alpha * (hW W).1 + lambda1 * ∑ i, ∑ j, |W i j| ≤
      sq X W' + 1 / 2 * rho * (hW W').1 * (hW W').1 + alpha * (hW W').1 + lambda1 * ∑ i, ∑ j, |W' i j| := by
    intro rho alpha hr ha
    let G : (Fin d → Fin d → ℝ) → ℝ := fun W =>
      sq X W + 1 / 2 * rho * (hW (K := ℝ) W).1 * (hW (K := ℝ) W).1 + alpha * (hW (K := ℝ) W).1 + lambda1 * ∑ i, ∑ j, |W i j|
    have hG : Continuous G := by
      have h1 := continuous_sq X
      have h2 := continuous_h (d := d)
      have h3 : Continuous fun W : Fin d → Fin d → ℝ => ∑ i, ∑ j, |W i j| := by fun_prop
      exact ((h1.add ((continuous_const.mul h2).mul h2)).add (continuous_const.mul h2)).add (continuous_const.mul h3)
    have hGsq : ∀ W, sq X W ≤ G W := by
      intro W
      have h1 := (c57_linear (K := ℝ) hd W).1
      have h2 : 0 ≤ ∑ i, ∑ j, |W i j| := Finset.sum_nonneg fun _ _ => Finset.sum_nonneg fun _ _ => abs_nonneg _
      have h3 := mul_nonneg ha h1
      have h4 := mul_nonneg hl h2
      have h5 : 0 ≤ 1 / 2 * rho * (hW (K := ℝ) W).1 * (hW (K := ℝ) W).1 := by positivity
      simp only [G]
      linarith
    let S : Set (Fin d → Fin d → ℝ) := {W | G W ≤ G 0} ∩ ⋂ i, {W | W i i = 0}
    have hc : IsCompact S := by
      refine Metric.isCompact_of_isClosed_isBounded (IsClosed.inter (isClosed_le hG continuous_const) (isClosed_iInter fun i => isClosed_eq ?_ continuous_const))
        ((sq_bounded hn hX (G 0)).subset fun W hW => (hGsq W).trans hW.1)
      fun_prop
    obtain ⟨W, hWS, hmin⟩ := hc.exists_isMinOn ⟨0, le_refl (G 0), Set.mem_iInter.2 fun i => rfl⟩ hG.continuousOn
    refine ⟨W, fun i => Set.mem_iInter.1 hWS.2 i, fun W' hW' => ?_⟩
    change G W ≤ G W'
    by_cases h0 : G W' ≤ G 0
    · exact hmin ⟨h0, Set.mem_iInter.2 hW'⟩
    · exact (hWS.1 : G W ≤ G 0).trans (not_le.1 h0).le
  classical
  refine ⟨fun rho alpha _ => if h : 0 < rho ∧ 0 ≤ alpha then split (Classical.choose (key rho alpha h.1 h.2)) else (0, 0), fun rho alpha w0 hr ha => ?_⟩
  simp only [dif_pos (And.intro hr ha)]
  obtain ⟨h1, h2⟩ := Classical.choose_spec (key rho alpha hr ha)
  set W := Classical.choose (key rho alpha hr ha)
  refine ⟨box_split h1, fun w hw => ?_⟩
  obtain ⟨g, hg⟩ := func_sq X lambda1 rho alpha (split W)
  obtain ⟨g', hg'⟩ := func_sq X lambda1 rho alpha w
  refine ⟨_, g, _, g', hg, hg', ?_⟩
  rw [adj_split, total_split]
  have h3 := h2 (adj w) fun i => by
    change w.1 i i - w.2 i i = 0
    rw [(hw.2 i).1, (hw.2 i).2, sub_zero]
  have h4 := mul_le_mul_of_nonneg_left (total_box hw) hl
  linarith

end Cdmir.Notears
