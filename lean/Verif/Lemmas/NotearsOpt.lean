import Verif.Props.Notears
import Verif.Lemmas.Markov
import Mathlib.Analysis.Normed.Module.FiniteDimension
import Mathlib.Topology.Instances.Matrix
import Mathlib.Analysis.Matrix.Spectrum
import Mathlib.Analysis.Matrix.PosDef
import Mathlib.Algebra.Order.Star.Real

/-! Lemmas for C169: the least squares loss over acyclic matrices, and the loop with an optimiser that finds a global minimum. -/

namespace Cdmir.Notears
open BigOperators Spec

variable {n d : Nat}

/-- The squared loss. -/
noncomputable def sq (X : Matrix (Fin n) (Fin d) ℝ) (W : Matrix (Fin d) (Fin d) ℝ) : ℝ := 1 / 2 / n * ∑ s, ∑ j, (X s j - ∑ l, X s l * W l j) ^ 2

theorem sq_nonneg' (X : Matrix (Fin n) (Fin d) ℝ) (W : Matrix (Fin d) (Fin d) ℝ) : 0 ≤ sq X W :=
  mul_nonneg (by positivity) (Finset.sum_nonneg fun _ _ => Finset.sum_nonneg fun _ _ => sq_nonneg _)

theorem det_one {R : Fin d → Fin d → Prop} {W : Matrix (Fin d) (Fin d) ℝ} (ac : Acyclic R) (hW : ∀ i j, W i j ≠ 0 → R i j) : (1 - W).det = 1 := by
  rw [Matrix.det_apply, Finset.sum_eq_single 1]
  · have : ∀ i, W i i = 0 := fun i => by
      by_contra h
      exact ac i (Relation.TransGen.single (hW i i h))
    simp [this]
  · intro σ _ hσ
    rw [Finset.prod_eq_zero_iff.2, smul_zero]
    by_contra hne
    push Not at hne
    obtain ⟨i, hi⟩ : ∃ i, σ i ≠ i := by
      by_contra h
      push Not at h
      exact hσ (Equiv.ext h)
    have hstep : ∀ j, σ j ≠ j → R (σ j) j := by
      intro j hj
      refine hW _ _ fun h => hne j (Finset.mem_univ _) ?_
      rw [Matrix.sub_apply, Matrix.one_apply_ne hj, h, sub_zero]
    have hmv : ∀ m : Nat, σ ((σ ^ m) i) ≠ (σ ^ m) i := by
      intro m h
      refine hi ((σ ^ m).injective ?_)
      rw [← h, ← Equiv.Perm.mul_apply, ← Equiv.Perm.mul_apply, ← pow_succ, ← pow_succ']
    have htr : ∀ m : Nat, Relation.TransGen R ((σ ^ (m + 1)) i) i := by
      intro m
      induction m with
      | zero => simpa using Relation.TransGen.single (hstep i hi)
      | succ m ih =>
        refine Relation.TransGen.head ?_ ih
        have := hstep _ (hmv (m + 1))
        rwa [← Equiv.Perm.mul_apply, ← pow_succ'] at this
    have ho := orderOf_pos σ
    have := htr (orderOf σ - 1)
    rw [Nat.sub_add_cancel ho, pow_orderOf_eq_one] at this
    exact ac i this
  · exact fun h => absurd (Finset.mem_univ _) h

/-- Two acyclic matrices with the same precision matrix for equal variances are equal. -/
theorem same_precision {B W : Matrix (Fin d) (Fin d) ℝ} (aB : Acyclic fun i j => B i j ≠ 0) (aW : Acyclic fun i j => W i j ≠ 0)
    (h : (1 - W) * (1 - W).transpose = (1 - B) * (1 - B).transpose) : W = B := by
  have dB : ∀ i, B i i = 0 := fun i => by
    by_contra q
    exact aB i (Relation.TransGen.single q)
  have dW : ∀ i, W i i = 0 := fun i => by
    by_contra q
    exact aW i (Relation.TransGen.single q)
  have hent : ∀ i j, ∑ k, (1 - W) i k * (1 - W) j k = ∑ k, (1 - B) i k * (1 - B) j k := by
    intro i j
    have := congrFun (congrFun h i) j
    rwa [Matrix.mul_apply, Matrix.mul_apply] at this
  have hdiag : ∀ A : Matrix (Fin d) (Fin d) ℝ, (∀ i, A i i = 0) → ∀ i, ∑ k, (1 - A) i k * (1 - A) i k = 1 + ∑ k, A i k ^ 2 := by
    intro A hA i
    rw [← Finset.add_sum_erase _ _ (Finset.mem_univ i), ← Finset.add_sum_erase _ (fun k => A i k ^ 2) (Finset.mem_univ i)]
    rw [Matrix.sub_apply, Matrix.one_apply_eq, hA]
    have : ∀ k ∈ Finset.univ.erase i, (1 - A) i k * (1 - A) i k = A i k ^ 2 := by
      intro k hk
      rw [Matrix.sub_apply, Matrix.one_apply_ne (Finset.ne_of_mem_erase hk).symm]
      ring
    rw [Finset.sum_congr rfl this]
    ring
  have aF : Acyclic fun i j => B j i ≠ 0 := by
    intro u hu
    refine aB u ?_
    rw [← Relation.transGen_swap]
    exact hu
  have hcol : ∀ i j, W j i = B j i := by
    intro i
    induction i using aF.wf.induction with
    | h i ih =>
      have hrow : ∀ k, W i k = B i k := by
        have h1 := hent i i
        rw [hdiag W dW, hdiag B dB] at h1
        have h2 : ∑ k, (W i k ^ 2 - B i k ^ 2) = 0 := by
          rw [Finset.sum_sub_distrib]
          linarith
        have h3 : ∀ k, 0 ≤ W i k ^ 2 - B i k ^ 2 := by
          intro k
          by_cases hk : B i k = 0
          · rw [hk]
            have := sq_nonneg (W i k)
            linarith
          · rw [ih k hk i, sub_self]
        intro k
        by_cases hk : B i k = 0
        · have h4 := (Finset.sum_eq_zero_iff_of_nonneg fun k _ => h3 k).1 h2 k (Finset.mem_univ _)
          rw [hk] at h4
          rw [hk]
          exact pow_eq_zero_iff (two_ne_zero) |>.1 (by linarith)
        · exact ih k hk i
      intro j
      have h1 := hent j i
      rw [← Finset.add_sum_erase _ _ (Finset.mem_univ i), ← Finset.add_sum_erase _ (fun k => (1 - B) j k * (1 - B) i k) (Finset.mem_univ i)] at h1
      have h2 : ∑ k ∈ Finset.univ.erase i, (1 - W) j k * (1 - W) i k = ∑ k ∈ Finset.univ.erase i, (1 - B) j k * (1 - B) i k := by
        refine Finset.sum_congr rfl fun k hk => ?_
        have hki : (1 : Matrix (Fin d) (Fin d) ℝ) i k = 0 := Matrix.one_apply_ne (Finset.ne_of_mem_erase hk).symm
        simp only [Matrix.sub_apply, hki, hrow k]
        by_cases hk0 : B i k = 0
        · simp [hk0]
        · rw [ih k hk0 j]
      rw [h2] at h1
      simp only [Matrix.sub_apply, Matrix.one_apply_eq, dB, dW] at h1
      linarith
  ext i j
  exact hcol j i

/-- A matrix of determinant one has at least the squares of the unit matrix, and no more only if it is orthogonal. -/
theorem squares_ge {M : Matrix (Fin d) (Fin d) ℝ} (h : M.det = 1) : (d : ℝ) ≤ ∑ i, ∑ j, M i j ^ 2 ∧ (∑ i, ∑ j, M i j ^ 2 = d → M * M.transpose = 1) := by
  have hp : (M.transpose * M).PosDef := by
    have hi : Function.Injective M.mulVec := by
      refine Matrix.mulVec_injective_of_isUnit ?_
      rw [Matrix.isUnit_iff_isUnit_det, h]
      exact isUnit_one
    have := Matrix.PosDef.conjTranspose_mul_self M hi
    rwa [Matrix.conjTranspose_eq_transpose_of_trivial] at this
  have htr : (M.transpose * M).trace = ∑ i, ∑ j, M i j ^ 2 := by
    rw [Finset.sum_comm]
    simp only [Matrix.trace, Matrix.diag, Matrix.mul_apply, Matrix.transpose_apply, pow_two]
  set A := M.transpose * M
  have hA := hp.isHermitian
  have hdet : ∏ i, hA.eigenvalues i = 1 := by
    have := hA.det_eq_prod_eigenvalues
    simp only [A, Matrix.det_mul, Matrix.det_transpose, h, mul_one] at this
    rw [this]
    simp
  have hsum : ∑ i, hA.eigenvalues i = ∑ i, ∑ j, M i j ^ 2 := by
    rw [← htr, hA.trace_eq_sum_eigenvalues]
    simp
  have hpos := hp.eigenvalues_pos
  have hlog : ∑ i, Real.log (hA.eigenvalues i) = 0 := by
    rw [← Real.log_prod fun i _ => (hpos i).ne', hdet, Real.log_one]
  have hle : ∀ i, Real.log (hA.eigenvalues i) ≤ hA.eigenvalues i - 1 := fun i => Real.log_le_sub_one_of_pos (hpos i)
  have hs : ∑ i, (hA.eigenvalues i - 1 - Real.log (hA.eigenvalues i)) = ∑ i, ∑ j, M i j ^ 2 - d := by
    rw [Finset.sum_sub_distrib, Finset.sum_sub_distrib, hsum, hlog]
    simp
  have hnn : ∀ i ∈ Finset.univ, 0 ≤ hA.eigenvalues i - 1 - Real.log (hA.eigenvalues i) := fun i _ => by
    have := hle i
    linarith
  refine ⟨?_, fun he => ?_⟩
  · have := Finset.sum_nonneg hnn
    linarith
  · rw [he, sub_self] at hs
    have h1 : ∀ i, hA.eigenvalues i = 1 := by
      intro i
      by_contra hne
      have h2 := (Finset.sum_eq_zero_iff_of_nonneg hnn).1 hs i (Finset.mem_univ _)
      have h3 := Real.log_lt_sub_one_of_pos (hpos i) hne
      linarith
    have h4 : A = 1 := by
      have := hA.spectral_theorem
      have hdg : (Matrix.diagonal (RCLike.ofReal ∘ hA.eigenvalues) : Matrix (Fin d) (Fin d) ℝ) = 1 := by
        rw [← Matrix.diagonal_one]
        congr 1
        funext i
        simp [h1]
      rw [hdg] at this
      rw [this]
      simp
    exact mul_eq_one_comm.1 h4

theorem continuous_sq (X : Matrix (Fin n) (Fin d) ℝ) : Continuous fun W : Fin d → Fin d → ℝ => sq X W := by
  unfold sq
  fun_prop

theorem continuous_h : Continuous fun W : Fin d → Fin d → ℝ => (hW (K := ℝ) W).1 := by
  have h1 : Continuous fun W : Fin d → Fin d → ℝ => (stepMat (had (K := ℝ) W W) : Matrix (Fin d) (Fin d) ℝ) := by
    refine continuous_matrix fun i j => ?_
    unfold stepMat had
    fun_prop
  have h2 := h1.pow (d - 1)
  unfold hW total had
  simp only [Matrix.transpose_apply]
  refine Continuous.sub (continuous_finsetSum _ fun i _ => continuous_finsetSum _ fun j _ => ?_) continuous_const
  exact (h2.matrix_elem j i).mul (h1.matrix_elem i j)

/-- The columns are linearly independent. -/
def Indep (X : Matrix (Fin n) (Fin d) ℝ) : Prop := ∀ t : Fin d → ℝ, (∀ s, ∑ l, X s l * t l = 0) → t = 0

/-- Weights with a bounded loss are bounded. -/
theorem sq_bounded (hn : 0 < n) {X : Matrix (Fin n) (Fin d) ℝ} (hX : Indep X) (c : ℝ) : Bornology.IsBounded {W : Fin d → Fin d → ℝ | sq X W ≤ c} := by
  let f : (Fin d → Fin d → ℝ) →ₗ[ℝ] (Fin n → Fin d → ℝ) :=
    { toFun := fun W s j => ∑ l, X s l * W l j
      map_add' := fun W W' => by
        funext s j
        simp [mul_add, Finset.sum_add_distrib]
      map_smul' := fun a W => by
        funext s j
        simp only [Pi.smul_apply, smul_eq_mul, RingHom.id_apply, Finset.mul_sum]
        exact Finset.sum_congr rfl fun l _ => by ring }
  have hker : LinearMap.ker f = ⊥ := by
    rw [LinearMap.ker_eq_bot']
    intro W hW
    funext l j
    have := hX (fun l => W l j) fun s => congrFun (congrFun hW s) j
    exact congrFun this l
  obtain ⟨K, -, hK⟩ := f.exists_antilipschitzWith hker
  have hsum : ∀ s j, |X s j| ≤ ∑ s, ∑ j, |X s j| := fun s j =>
    (Finset.single_le_sum (f := fun j => |X s j|) (fun _ _ => abs_nonneg _) (Finset.mem_univ j)).trans
      (Finset.single_le_sum (f := fun s => ∑ j, |X s j|) (fun _ _ => Finset.sum_nonneg fun _ _ => abs_nonneg _) (Finset.mem_univ s))
  have hb : Bornology.IsBounded {Y : Fin n → Fin d → ℝ | ∀ s j, |X s j - Y s j| ≤ Real.sqrt (2 * n * c)} := by
    refine isBounded_iff_forall_norm_le.2 ⟨∑ s, ∑ j, |X s j| + Real.sqrt (2 * n * c), fun Y hY => ?_⟩
    have h0 : 0 ≤ ∑ s, ∑ j, |X s j| + Real.sqrt (2 * n * c) :=
      add_nonneg (Finset.sum_nonneg fun _ _ => Finset.sum_nonneg fun _ _ => abs_nonneg _) (Real.sqrt_nonneg _)
    refine (pi_norm_le_iff_of_nonneg h0).2 fun s => (pi_norm_le_iff_of_nonneg h0).2 fun j => ?_
    rw [Real.norm_eq_abs]
    have h1 := hY s j
    have h2 := hsum s j
    have h3 := abs_sub_abs_le_abs_sub (Y s j) (X s j)
    rw [abs_sub_comm] at h3
    linarith
  refine (hK.isBounded_preimage hb).subset fun W hW s j => ?_
  refine Real.abs_le_sqrt ?_
  have h1 : (X s j - ∑ l, X s l * W l j) ^ 2 ≤ ∑ s, ∑ j, (X s j - ∑ l, X s l * W l j) ^ 2 :=
    (Finset.single_le_sum (f := fun j => (X s j - ∑ l, X s l * W l j) ^ 2) (fun _ _ => sq_nonneg _) (Finset.mem_univ j)).trans
      (Finset.single_le_sum (f := fun s => ∑ j, (X s j - ∑ l, X s l * W l j) ^ 2) (fun _ _ => Finset.sum_nonneg fun _ _ => sq_nonneg _) (Finset.mem_univ s))
  have h2 : ∑ s, ∑ j, (X s j - ∑ l, X s l * W l j) ^ 2 = 2 * n * sq X W := by
    have : (n : ℝ) ≠ 0 := Nat.cast_ne_zero.2 hn.ne'
    unfold sq
    field_simp
  have h3 : 2 * n * sq X W ≤ 2 * n * c := mul_le_mul_of_nonneg_left hW (by positivity)
  exact h1.trans (h2.le.trans h3)

/-- If `B` is the only best acyclic matrix, then nearly acyclic matrices that are nearly as good are near `B`. -/
theorem near_best (hd : 0 < d) (hn : 0 < n) {X : Matrix (Fin n) (Fin d) ℝ} (hX : Indep X) {B : Matrix (Fin d) (Fin d) ℝ}
    (hB : ∀ W : Matrix (Fin d) (Fin d) ℝ, (hW W).1 = 0 → W ≠ B → sq X B < sq X W) {ε : ℝ} (hε : 0 < ε) :
    ∃ δ, 0 < δ ∧ ∀ W : Matrix (Fin d) (Fin d) ℝ, sq X W ≤ sq X B + δ → (hW W).1 ≤ δ → ∀ i j, |W i j - B i j| < ε := by
  let S : Set (Fin d → Fin d → ℝ) := {W | sq X W ≤ sq X B + 1} ∩ ⋃ i, ⋃ j, {W | ε ≤ |W i j - B i j|}
  have hc : IsCompact S := by
    refine Metric.isCompact_of_isClosed_isBounded (IsClosed.inter ?_ ?_) ((sq_bounded hn hX _).subset Set.inter_subset_left)
    · exact isClosed_le (continuous_sq X) continuous_const
    · refine isClosed_iUnion_of_finite fun i => isClosed_iUnion_of_finite fun j => isClosed_le continuous_const ?_
      fun_prop
  have hmem : ∀ W : Matrix (Fin d) (Fin d) ℝ, sq X W ≤ sq X B + 1 → ∀ i j, ε ≤ |W i j - B i j| → W ∈ S := fun W h i j h' =>
    ⟨h, Set.mem_iUnion.2 ⟨i, Set.mem_iUnion.2 ⟨j, h'⟩⟩⟩
  by_cases hS : S.Nonempty
  · have hF : Continuous fun W : Fin d → Fin d → ℝ => max (sq X W - sq X B) (hW (K := ℝ) W).1 :=
      ((continuous_sq X).sub continuous_const).max continuous_h
    obtain ⟨W0, hW0, hmin⟩ := hc.exists_isMinOn hS hF.continuousOn
    have hpos : 0 < max (sq X W0 - sq X B) (hW (K := ℝ) W0).1 := by
      by_contra hle
      push Not at hle
      have h1 := (max_le_iff.1 hle).1
      have h2 := (max_le_iff.1 hle).2
      have h3 : (hW (K := ℝ) W0).1 = 0 := le_antisymm h2 (c57_linear hd W0).1
      have hne : W0 ≠ B := by
        rintro rfl
        obtain ⟨i, hi⟩ := Set.mem_iUnion.1 hW0.2
        obtain ⟨j, hj⟩ := Set.mem_iUnion.1 hi
        have hj' : ε ≤ |W0 i j - W0 i j| := hj
        rw [sub_self, abs_zero] at hj'
        linarith
      have := hB W0 h3 hne
      linarith
    refine ⟨min 1 (max (sq X W0 - sq X B) (hW (K := ℝ) W0).1 / 2), lt_min one_pos (half_pos hpos), fun W h1 h2 i j => ?_⟩
    by_contra hle
    push Not at hle
    have hWS := hmem W (h1.trans (by linarith [min_le_left 1 (max (sq X W0 - sq X B) (hW (K := ℝ) W0).1 / 2)])) i j hle
    have h4 : max (sq X W0 - sq X B) (hW (K := ℝ) W0).1 ≤ max (sq X W - sq X B) (hW (K := ℝ) W).1 := hmin hWS
    have h5 := min_le_right 1 (max (sq X W0 - sq X B) (hW (K := ℝ) W0).1 / 2)
    have h6 : max (sq X W - sq X B) (hW (K := ℝ) W).1 ≤ max (sq X W0 - sq X B) (hW (K := ℝ) W0).1 / 2 :=
      max_le (by linarith) (h2.trans h5)
    linarith
  · refine ⟨1, one_pos, fun W h1 _ i j => ?_⟩
    by_contra hle
    push Not at hle
    exact hS ⟨W, hmem W h1 i j hle⟩

section loop
variable {minim : ℝ → ℝ → Doubled ℝ d → Doubled ℝ d}

/-- What the inner loop leaves: a point found for `rho`, and then `h` fell enough, or for a tenth of the last `rho`. -/
theorem inner_last {rhoMax alpha : ℝ} {h : Option ℝ} {w : Doubled ℝ d} {fuel : Nat} {rho rho' : ℝ} {new : Option (Doubled ℝ d × ℝ)} {q : Doubled ℝ d × ℝ}
    (h1 : 1 ≤ rho) (hnew : ∀ q, new = some q → ∃ r, 1 ≤ r ∧ rho = r * 10 ∧ q = (minim r alpha w, (hW (adj (minim r alpha w))).1))
    (e : inner minim rhoMax alpha h w fuel rho new = .ok (rho', some q)) :
    1 ≤ rho' ∧ ∃ r, 1 ≤ r ∧ q = (minim r alpha w, (hW (adj (minim r alpha w))).1) ∧ (rho' < rhoMax ∧ slow h q.2 = false ∨ rhoMax ≤ rho' ∧ rho' = r * 10) := by
  induction fuel generalizing rho new with
  | zero =>
    unfold inner at e
    split at e
    · cases e
    · rename_i hr
      simp only [pure, Except.pure, Except.ok.injEq, Prod.mk.injEq] at e
      obtain ⟨rfl, rfl⟩ := e
      obtain ⟨r, hr1, hr2, hr3⟩ := hnew q rfl
      exact ⟨h1, r, hr1, hr3, Or.inr ⟨not_lt.1 hr, hr2⟩⟩
  | succ fuel ih =>
    unfold inner at e
    split at e
    · rename_i hr
      simp only at e
      split at e
      · refine ih (by linarith) (fun q hq => ?_) e
        rw [Option.some.injEq] at hq
        exact ⟨rho, h1, rfl, hq.symm⟩
      · rename_i hsl
        simp only [pure, Except.pure, Except.ok.injEq, Prod.mk.injEq, Option.some.injEq] at e
        obtain ⟨rfl, rfl⟩ := e
        exact ⟨h1, rho, h1, rfl, Or.inl ⟨hr, Bool.eq_false_iff.2 hsl⟩⟩
    · rename_i hr
      simp only [pure, Except.pure, Except.ok.injEq, Prod.mk.injEq] at e
      obtain ⟨rfl, rfl⟩ := e
      obtain ⟨r, hr1, hr2, hr3⟩ := hnew q rfl
      exact ⟨h1, r, hr1, hr3, Or.inr ⟨not_lt.1 hr, hr2⟩⟩

/-- How large the last constraint may be that the loop over `k` rounds starts with. -/
def startsWell (C δ : ℝ) (k : Nat) : Option ℝ → Prop
  | none => C ≤ (δ * 4 ^ (k - 1)) ^ 2
  | some h => h ≤ δ * 4 ^ k

/-- With an optimiser that bounds `rho * h ^ 2` the loop ends at a point that is nearly acyclic. -/
theorem outer_small (hd : 0 < d) {p : Params ℝ} {C δ : ℝ} (hδ : 0 < δ)
    (hC : ∀ r a w, 1 ≤ r → 0 ≤ a → r * (hW (adj (minim r a w))).1 ^ 2 ≤ C) (htol : p.hTol ≤ δ) (hR : 10 * C ≤ p.rhoMax * δ ^ 2) {fuel k : Nat} {s s' : State ℝ d}
    (hk : 0 < k) (ha : 0 ≤ s.alpha) (hr : 1 ≤ s.rho) (hs : startsWell C δ k s.h) (e : outer fuel minim p k s = .ok s') :
    ∃ r a w, 1 ≤ r ∧ 0 ≤ a ∧ s'.w = minim r a w ∧ (hW (adj s'.w)).1 ≤ δ := by
  induction k generalizing s with
  | zero => exact absurd hk (lt_irrefl _)
  | succ k ih =>
    unfold outer at e
    cases i : inner minim p.rhoMax s.alpha s.h s.w fuel s.rho none with
    | error x => rw [i] at e; exact absurd e (by simp [bind, Except.bind])
    | ok q =>
      obtain ⟨rho, nw⟩ := q
      rw [i] at e
      cases nw with
      | none => exact absurd e (by simp [bind, Except.bind, throw, throwThe, MonadExceptOf.throw])
      | some q =>
        obtain ⟨hrho, r, hr1, rfl, hlast⟩ := inner_last hr (fun q hq => by cases hq) i
        simp only [bind, Except.bind] at e
        have hh0 := (c57_linear hd (adj (minim r s.alpha s.w))).1
        have hbound := hC r s.alpha s.w hr1 ha
        set w := minim r s.alpha s.w with hw
        set h := (hW (adj w)).1 with hh
        have hnext : rho < p.rhoMax → h ≤ δ * 4 ^ k := by
          intro hlt
          rcases hlast with ⟨-, hsl⟩ | ⟨hge, -⟩
          · cases hsh : s.h with
            | none =>
              rw [hsh] at hs
              have hs' : C ≤ (δ * 4 ^ k) ^ 2 := hs
              refine abs_le_of_sq_le_sq' ?_ (by positivity) |>.2
              nlinarith
            | some h0 =>
              rw [hsh] at hs hsl
              have hs' : h0 ≤ δ * 4 ^ (k + 1) := hs
              have hsl' : ¬ h > 1 / 4 * h0 := by simpa [slow] using hsl
              rw [pow_succ] at hs'
              linarith
          · exact absurd hlt (not_lt.2 hge)
        split at e
        · rename_i hstop
          simp only [pure, Except.pure, Except.ok.injEq] at e
          rw [← e]
          refine ⟨r, s.alpha, s.w, hr1, ha, rfl, ?_⟩
          change h ≤ δ
          rcases hstop with hstop | hstop
          · exact hstop.trans htol
          · rcases hlast with ⟨hlt, -⟩ | ⟨-, hlast⟩
            · exact absurd hlt (not_lt.2 hstop)
            · have h1 : p.rhoMax ≤ r * 10 := by rw [← hlast]; exact hstop
              have h2 : r * h ^ 2 ≤ r * δ ^ 2 := by nlinarith [sq_nonneg δ]
              have h3 : h ^ 2 ≤ δ ^ 2 := le_of_mul_le_mul_left h2 (by linarith)
              exact abs_le_of_sq_le_sq' h3 hδ.le |>.2
        · rename_i hgo
          push Not at hgo
          rcases Nat.eq_zero_or_pos k with rfl | kp
          · simp only [outer, pure, Except.pure, Except.ok.injEq] at e
            rw [← e]
            refine ⟨r, s.alpha, s.w, hr1, ha, rfl, ?_⟩
            have := hnext hgo.2
            simpa using this
          · exact ih (s := ⟨w, rho, s.alpha + rho * h, some h⟩) kp (add_nonneg ha (mul_nonneg (by linarith) hh0)) hrho (hnext hgo.2) e

end loop

end Cdmir.Notears
